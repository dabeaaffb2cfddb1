import Verif.Bits.Spec
/-! # Lemmas about bit blocks and queues -/
namespace Hibit

/-- one bits of a word, ascending -/
def wones (w : Word) : List Nat := (List.range 64).filter (fun i => w.getLsbD i)

theorem range_split {t n : Nat} (h : t < n) :
    List.range n = List.range t ++ t :: (List.range (n - t - 1)).map (· + (t + 1)) := by
  have : n = t + (1 + (n - t - 1)) := by omega
  conv => lhs; rw [this, List.range_add, List.range_add]
  simp [List.map_map, Function.comp_def]
  intros; omega

theorem filter_range_cons {n t : Nat} (p q : Nat → Bool) (ht : t < n) (hp : p t = true)
    (hlt : ∀ j < t, p j = false) (hq : ∀ j, j < n → q j = (p j && decide (j ≠ t))) :
    (List.range n).filter p = t :: (List.range n).filter q := by
  rw [range_split ht]
  simp only [List.filter_append, List.filter_cons, hp, if_true]
  have h1 : (List.range t).filter p = [] := by
    simp only [List.filter_eq_nil_iff, List.mem_range]
    intro a ha; simp [hlt a ha]
  have h2 : (List.range t).filter q = [] := by
    simp only [List.filter_eq_nil_iff, List.mem_range]
    intro a ha; simp [hq a (by omega), hlt a ha]
  have h3 : q t = false := by simp [hq t ht]
  rw [h1, h2, h3]
  simp only [List.nil_append, List.cons.injEq, true_and]
  simp only [Bool.false_eq_true, if_false]
  apply List.filter_congr
  intro x hx
  simp only [List.mem_map, List.mem_range] at hx
  obtain ⟨a, ha, rfl⟩ := hx
  rw [hq _ (by omega)]
  simp; omega

theorem tz_spec {w : Word} (h : w ≠ 0) :
    tz w < 64 ∧ w.getLsbD (tz w) = true ∧ ∀ j < tz w, w.getLsbD j = false := by
  unfold tz
  cases hf : (List.range 64).find? (fun i => w.getLsbD i) with
  | none =>
    exfalso; apply h
    apply BitVec.eq_of_getLsbD_eq
    intro i hi
    rw [List.find?_eq_none] at hf
    have := hf i (by simp [hi])
    simpa using this
  | some t =>
    simp only [Option.getD_some]
    rw [List.find?_range_eq_some] at hf
    refine ⟨by simpa using hf.2.1, hf.1, ?_⟩
    intro j hj
    simpa using hf.2.2 j hj

theorem tz_zero : tz 0 = 64 := by decide

theorem clearLowest_bit {w : Word} (h : w ≠ 0) (i : Nat) :
    (clearLowest w).getLsbD i = (w.getLsbD i && decide (i ≠ tz w)) := by
  obtain ⟨h1, h2, h3⟩ := tz_spec h
  unfold clearLowest
  rw [BitVec.getLsbD_xor, BitVec.getLsbD_and, BitVec.getLsbD_neg]
  by_cases hi : ¬ i < 64
  · have : w.getLsbD i = false := BitVec.getLsbD_of_ge _ _ (by omega)
    simp [this]
  have hi : i < 64 := by omega
  by_cases he : i = tz w
  · have : ¬ ∃ j < i, w.getLsbD j = true := by
      rintro ⟨j, hj, hj2⟩
      rw [h3 j (by omega)] at hj2; cases hj2
    rw [decide_eq_false this, he, h2]; simp
  · by_cases hb : w.getLsbD i = true
    · have hlt : tz w < i := by
        rcases Nat.lt_trichotomy i (tz w) with hl | hl | hl
        · rw [h3 i hl] at hb; cases hb
        · exact absurd hl he
        · exact hl
      have : ∃ j < i, w.getLsbD j = true := ⟨tz w, hlt, h2⟩
      rw [decide_eq_true this, hb]; simp [hi, he]
    · simp at hb; simp [hb]

theorem wones_cons {w : Word} (h : w ≠ 0) : wones w = tz w :: wones (clearLowest w) := by
  obtain ⟨h1, h2, h3⟩ := tz_spec h
  exact filter_range_cons _ _ h1 h2 h3 (fun j _ => clearLowest_bit h j)

@[simp] theorem wones_zero : wones 0#64 = [] := by decide
@[simp] theorem wones_zero' : wones 0 = [] := by decide

theorem wones_eq_nil {w : Word} : wones w = [] ↔ w = 0 := by
  constructor
  · intro h
    apply Classical.byContradiction
    intro hne
    rw [wones_cons hne] at h; cases h
  · rintro rfl; simp

theorem wones_length_le (w : Word) : (wones w).length ≤ 64 := by
  have := List.length_filter_le (fun i => w.getLsbD i) (List.range 64)
  simpa [wones] using this

theorem mem_wones {w : Word} {i : Nat} : i ∈ wones w ↔ w.getLsbD i = true := by
  simp only [wones, List.mem_filter, List.mem_range]
  constructor
  · exact fun h => h.2
  · intro h; exact ⟨BitVec.lt_of_getLsbD h, h⟩

theorem popcount_eq (w : Word) : popcount w = (wones w).length := by
  simp [popcount, wones, List.countP_eq_length_filter]

/-- `OneBitsIter::next` pops the head of the one-bit list. -/
theorem oneBits_next (w : Word) :
    (OneBitsIter.next w).1 = (wones w).head? ∧ wones (OneBitsIter.next w).2 = (wones w).tail := by
  unfold OneBitsIter.next
  by_cases h : w = 0
  · subst h; simp
  · have h' : (w == 0) = false := by simpa using h
    rw [h', wones_cons h]; simp

theorem traverseOneBitsLoop_eq {σ : Type} (f : σ → Nat → σ × Bool) :
    ∀ (fuel : Nat) (s : σ) (w : Word), (wones w).length < fuel →
      traverseOneBitsLoop f fuel s w = .ok (feed f s (wones w)) := by
  intro fuel
  induction fuel with
  | zero => intro s w h; omega
  | succ n ih =>
    intro s w h
    unfold traverseOneBitsLoop
    by_cases h0 : w = 0
    · subst h0; simp [feed]
    · have h' : (w == 0) = false := by simpa using h0
      rw [wones_cons h0] at h ⊢
      simp only [List.length_cons] at h
      rw [h']
      simp only [Bool.false_eq_true, if_false, feed]
      split
      · rfl
      · rw [ih _ _ (by omega)]

theorem traverseOneBits_eq {σ : Type} (f : σ → Nat → σ × Bool) (s : σ) (w : Word) :
    traverseOneBits f s w = .ok (feed f s (wones w)) := by
  unfold traverseOneBits
  exact traverseOneBitsLoop_eq f 65 s w (by have := wones_length_le w; omega)

theorem feed_map {σ α β : Type} (f : σ → β → σ × Bool) (g : α → β) (s : σ) (l : List α) :
    feed (fun s a => f s (g a)) s l = feed f s (l.map g) := by
  induction l generalizing s with
  | nil => rfl
  | cons a l ih => simp only [feed, List.map_cons, ih]

theorem feed_append {σ α : Type} (f : σ → α → σ × Bool) (s : σ) (l l' : List α) :
    feed f s (l ++ l') =
      if (feed f s l).2 then ((feed f s l).1, true) else feed f (feed f s l).1 l' := by
  induction l generalizing s with
  | nil => simp [feed]
  | cons a l ih =>
    simp only [feed, List.cons_append]
    split
    · simp
    · simp [ih]

/-- one bits of a list of words whose first word has position `i` -/
def onesFrom (i : Nat) : List Word → List Nat
  | [] => []
  | w :: ws => (wones w).map (fun r => 64 * i + r) ++ onesFrom (i + 1) ws

theorem traverseArrayFrom_eq {σ : Type} (f : σ → Nat → σ × Bool) (ws : List Word) :
    ∀ (i : Nat) (s : σ),
      traverseArrayOneBitsFrom f i s ws = .ok (feed f s (onesFrom i ws)) := by
  induction ws with
  | nil => intro i s; rfl
  | cons w ws ih =>
    intro i s
    simp only [traverseArrayOneBitsFrom, traverseOneBits_eq, bind_ok, onesFrom, feed_append, ih]
    have hm : (fun r => i * 8 * 8 + r) = (fun r => 64 * i + r) := by funext r; omega
    rw [feed_map f (fun r => i * 8 * 8 + r), hm]
    split <;> rfl

theorem onesFrom_shift (ws : List Word) : ∀ (i j : Nat),
    onesFrom (i + j) ws = (onesFrom j ws).map (fun r => 64 * i + r) := by
  induction ws with
  | nil => intro i j; rfl
  | cons w ws ih =>
    intro i j
    simp only [onesFrom, List.map_append, List.map_map]
    congr 1
    · apply List.map_congr_left; intro a _; simp; omega
    · have := ih i (j + 1); rwa [← Nat.add_assoc] at this

theorem bit_cons_lt (w : Word) (ws : List Word) {i : Nat} (h : i < 64) :
    Mask.bit (w :: ws) i = w.getLsbD i := by
  simp [Mask.bit, Nat.div_eq_of_lt h, Nat.mod_eq_of_lt h]

theorem bit_cons_add (w : Word) (ws : List Word) (i : Nat) :
    Mask.bit (w :: ws) (64 + i) = Mask.bit ws i := by
  have h1 : (64 + i) / 64 = i / 64 + 1 := by omega
  have h2 : (64 + i) % 64 = i % 64 := by omega
  simp [Mask.bit, h1, h2]

theorem ones_cons (w : Word) (ws : List Word) :
    Mask.ones (w :: ws) = wones w ++ (Mask.ones ws).map (fun r => 64 + r) := by
  unfold Mask.ones wones
  have : 64 * (w :: ws).length = 64 + 64 * ws.length := by simp; omega
  rw [this, List.range_add, List.filter_append, List.filter_map]
  have e1 : (List.range 64).filter (fun i => Mask.bit (w :: ws) i) =
      (List.range 64).filter (fun i => w.getLsbD i) := by
    apply List.filter_congr
    intro x hx
    exact bit_cons_lt w ws (by simpa using hx)
  rw [e1]
  · have : ((fun i => Mask.bit (w :: ws) i) ∘ fun x => 64 + x) = fun i => Mask.bit ws i := by
      funext x; exact bit_cons_add w ws x
    rw [this]

theorem onesFrom_zero (ws : List Word) : onesFrom 0 ws = Mask.ones ws := by
  induction ws with
  | nil => rfl
  | cons w ws ih =>
    rw [ones_cons, onesFrom, ← ih]
    congr 1
    · simp
    · have := onesFrom_shift ws 1 0; simpa using this

theorem mem_ones {m : Mask} {i : Nat} : i ∈ m.ones ↔ m.bit i = true := by
  simp only [Mask.ones, List.mem_filter, List.mem_range]
  constructor
  · exact fun h => h.2
  · intro h
    refine ⟨?_, h⟩
    apply Classical.byContradiction
    intro hn
    have : m.length ≤ i / 64 := by omega
    simp [Mask.bit, List.getD_eq_getElem?_getD, List.getElem?_eq_none this] at h

theorem ones_pairwise (m : Mask) : m.ones.Pairwise (· < ·) :=
  List.Pairwise.filter _ List.pairwise_lt_range

theorem bit_lt {m : Mask} {i : Nat} (h : m.bit i = true) : i < 64 * m.length := by
  have := mem_ones.2 h
  simp only [Mask.ones, List.mem_filter, List.mem_range] at this
  exact this.1

theorem traverseBits_eq {σ : Type} (f : σ → Nat → σ × Bool) (s : σ) (m : Mask) :
    traverseBits f s m = .ok (feed f s m.ones) := by
  unfold traverseBits
  split
  · rename_i h
    match m, h with
    | [w], _ =>
      simp [getU, traverseOneBits_eq, ones_cons]
      simp [Mask.ones]
  · unfold traverseArrayOneBits
    rw [traverseArrayFrom_eq, onesFrom_zero]

/-! ### set / get -/

theorem shlP_one_bit {k : Nat} (i : Nat) (hi : i < 64) :
    ((1 : Word) <<< k).getLsbD i = decide (i = k) := by
  rw [BitVec.getLsbD_shiftLeft]
  simp only [hi, decide_true, Bool.true_and]
  by_cases h1 : i < k
  · simp [h1]; omega
  · simp only [h1, decide_false, Bool.not_false, Bool.true_and]
    have : (1 : Word).getLsbD (i - k) = decide (i - k = 0) := by
      simp [BitVec.getLsbD_one]
    rw [this]; congr 1; apply propext; omega

theorem word_eq_zero_iff (w : Word) : w = 0 ↔ ∀ i < 64, w.getLsbD i = false := by
  constructor
  · rintro rfl i _; simp
  · intro h; apply BitVec.eq_of_getLsbD_eq; intro i hi; simpa using h i hi

theorem setBitUnchecked_spec (flag : Bool) (w : Word) {k : Nat} (h : k < 64) :
    ∃ w', setBitUnchecked flag w k = .ok (w.getLsbD k, w') ∧
      ∀ i < 64, w'.getLsbD i = if i = k then flag else w.getLsbD i := by
  refine ⟨if flag then w ||| ((1 : Word) <<< k) else w &&& ~~~ ((1 : Word) <<< k), ?_, ?_⟩
  · simp only [setBitUnchecked, shlP, h, if_true, bind_ok, pure_eq_ok]
    congr 2
    by_cases hb : w.getLsbD k = true
    · rw [hb]
      have : ¬ (w &&& ((1 : Word) <<< k) = 0) := by
        rw [word_eq_zero_iff]
        intro hc
        have := hc k h
        rw [BitVec.getLsbD_and, shlP_one_bit k h, hb] at this
        simp at this
      simpa using this
    · simp at hb
      rw [hb]
      have : w &&& ((1 : Word) <<< k) = 0 := by
        rw [word_eq_zero_iff]
        intro i hi
        rw [BitVec.getLsbD_and, shlP_one_bit i hi]
        by_cases he : i = k
        · subst he; simp [hb]
        · simp [he]
      rw [this]; rfl
  · intro i hi
    cases flag with
    | true =>
      simp only [if_true, BitVec.getLsbD_or, shlP_one_bit i hi]
      split <;> simp_all
    | false =>
      simp only [Bool.false_eq_true, if_false, BitVec.getLsbD_and, BitVec.getLsbD_not,
        shlP_one_bit i hi]
      split <;> simp_all

theorem and63 (i : Nat) : i &&& (64 - 1) = i % 64 := Nat.and_two_pow_sub_one_eq_mod i 6

theorem getBitUnchecked_eq (w : Word) {k : Nat} (h : k < 64) :
    getBitUnchecked w k = .ok (w.getLsbD k) := by
  simp only [getBitUnchecked, shrP, h, if_true, bind_ok, pure_eq_ok]
  congr 1
  by_cases hb : w.getLsbD k = true
  · rw [hb]
    have : ¬ ((w >>> k) &&& 1 = 0) := by
      rw [word_eq_zero_iff]
      intro hc
      have := hc 0 (by omega)
      rw [BitVec.getLsbD_and, BitVec.getLsbD_ushiftRight] at this
      simp [hb] at this
    simpa using this
  · simp at hb
    rw [hb]
    have : (w >>> k) &&& 1 = 0 := by
      rw [word_eq_zero_iff]
      intro i hi
      rw [BitVec.getLsbD_and, BitVec.getLsbD_ushiftRight]
      by_cases hi0 : i = 0
      · subst hi0; simp [hb]
      · simp [BitVec.getLsbD_one, hi0]
    rw [this]; rfl

theorem bit_eq (m : Mask) {i : Nat} (h : i / 64 < m.length) :
    m.bit i = (m[i / 64]).getLsbD (i % 64) := by
  simp [Mask.bit, List.getD_eq_getElem?_getD, List.getElem?_eq_getElem h]

theorem getBit_eq (m : Mask) {k : Nat} (h : k < 64 * m.length) :
    getBit m k = .ok (m.bit k) := by
  unfold getBit
  split
  · rename_i h1
    match m, h1 with
    | [w], _ =>
      have hk : k < 64 := by simpa using h
      simp [getU, getBitUnchecked_eq w hk, bit_cons_lt w [] hk]
  · unfold getArrayBitUnchecked
    have hk : k / 64 < m.length := by omega
    dsimp only
    rw [and63, getU_ok hk, bind_ok, getBitUnchecked_eq _ (by omega), bit_eq m hk]

theorem setBit_spec (flag : Bool) (m : Mask) {k : Nat} (h : k < 64 * m.length) :
    ∃ m', setBit flag m k = .ok (m.bit k, m') ∧ m'.length = m.length ∧
      ∀ i, i < 64 * m.length → m'.bit i = if i = k then flag else m.bit i := by
  unfold setBit
  split
  · rename_i h1
    match m, h1 with
    | [w], _ =>
      have hk : k < 64 := by simpa using h
      obtain ⟨w', e, hw⟩ := setBitUnchecked_spec flag w hk
      refine ⟨[w'], ?_, rfl, ?_⟩
      · simp [getU, e, setU, bit_cons_lt w [] hk]
      · intro i hi
        have hi : i < 64 := by simpa using hi
        rw [bit_cons_lt _ _ hi, bit_cons_lt _ _ hi, hw i hi]
  · unfold setArrayBitUnchecked
    have hk : k / 64 < m.length := by omega
    obtain ⟨w', e, hw⟩ := setBitUnchecked_spec flag m[k / 64] (Nat.mod_lt k (by omega : 64 > 0))
    refine ⟨m.set (k / 64) w', ?_, by simp, ?_⟩
    · dsimp only
      rw [and63, getU_ok hk, bind_ok, e, bind_ok]
      simp [setU_ok _ hk, bit_eq m hk]
    · intro i hi
      have hi' : i / 64 < m.length := by omega
      rw [bit_eq _ (by simpa using hi'), bit_eq _ hi', List.getElem_set]
      split
      · rename_i he
        rw [hw _ (Nat.mod_lt _ (by omega))]
        have : (i % 64 = k % 64) ↔ i = k := by omega
        simp only [this]
        simp only [he]
      · rename_i hne
        have : i ≠ k := by rintro rfl; exact hne rfl
        simp [this]

theorem bit_of_ge {m : Mask} {i : Nat} (h : 64 * m.length ≤ i) : m.bit i = false := by
  cases hb : m.bit i with
  | false => rfl
  | true => have := bit_lt hb; omega

theorem Mask.ext {m m' : Mask} (hl : m.length = m'.length)
    (h : ∀ i < 64 * m.length, m.bit i = m'.bit i) : m = m' := by
  apply List.ext_getElem hl
  intro j h1 h2
  apply BitVec.eq_of_getLsbD_eq
  intro i hi
  have := h (64 * j + i) (by omega)
  have e : (64 * j + i) / 64 = j := by omega
  have e2 : (64 * j + i) % 64 = i := by omega
  rw [bit_eq _ (by omega), bit_eq _ (by omega)] at this
  simp only [e, e2] at this
  exact this

theorem isZero_iff (m : Mask) : isZero m = true ↔ ∀ i, m.bit i = false := by
  constructor
  · intro h i
    by_cases hi : i < 64 * m.length
    · have h' : i / 64 < m.length := by omega
      rw [bit_eq m h']
      simp only [isZero, List.all_eq_true] at h
      have := h _ (List.getElem_mem h')
      simp at this
      simp [this]
    · exact bit_of_ge (by omega)
  · intro h
    simp only [isZero, List.all_eq_true]
    intro w hw
    obtain ⟨j, hj, rfl⟩ := List.getElem_of_mem hw
    have : m[j] = 0 := by
      rw [word_eq_zero_iff]
      intro i hi
      have := h (64 * j + i)
      rw [bit_eq _ (by omega)] at this
      have e : (64 * j + i) / 64 = j := by omega
      have e2 : (64 * j + i) % 64 = i := by omega
      simp only [e, e2] at this
      exact this
    simp [this]

theorem countOnes_eq (m : Mask) : countOnes m = m.ones.length := by
  induction m with
  | nil => rfl
  | cons w ws ih =>
    rw [ones_cons, List.length_append, List.length_map, ← ih]
    simp [countOnes, popcount_eq]

@[simp] theorem length_zeroMask (n : Nat) : (zeroMask n).length = n := by simp [zeroMask]
@[simp] theorem bit_zeroMask (n i : Nat) : (zeroMask n).bit i = false := by
  simp only [Mask.bit, zeroMask, List.getD_eq_getElem?_getD, List.getElem?_replicate]
  split <;> simp

theorem length_andMask {a b : Mask} (h : a.length = b.length) :
    (andMask a b).length = a.length := by simp [andMask, h]
theorem length_orMask {a b : Mask} (h : a.length = b.length) :
    (orMask a b).length = a.length := by simp [orMask, h]

theorem bit_andMask {a b : Mask} (h : a.length = b.length) (i : Nat) :
    (andMask a b).bit i = (a.bit i && b.bit i) := by
  by_cases hi : i / 64 < a.length
  · rw [bit_eq _ (by rw [length_andMask h]; exact hi), bit_eq a hi, bit_eq b (by omega)]
    simp [andMask]
  · rw [bit_of_ge (by rw [length_andMask h]; omega), bit_of_ge (m := a) (by omega)]; rfl

theorem bit_orMask {a b : Mask} (h : a.length = b.length) (i : Nat) :
    (orMask a b).bit i = (a.bit i || b.bit i) := by
  by_cases hi : i / 64 < a.length
  · rw [bit_eq _ (by rw [length_orMask h]; exact hi), bit_eq a hi, bit_eq b (by omega)]
    simp [orMask]
  · rw [bit_of_ge (by rw [length_orMask h]; omega), bit_of_ge (m := a) (by omega),
      bit_of_ge (m := b) (by omega)]; rfl

/-! ### Queues -/

/-- Well-formed queue state over `N` words. -/
def BitsIter.Wf (N : Nat) : BitsIter → Prop
  | .prim _ => N = 1
  | .arr q => q.iters.length = N ∧ q.idx < N

/-- Remaining bits of a queue. -/
def BitsIter.rem : BitsIter → List Nat
  | .prim w => wones w
  | .arr q => onesFrom q.idx ((q.iters.headD 0) :: q.iters.drop (q.idx + 1))

theorem intoBitsIter_wf {m : Mask} (h : 0 < m.length) : (intoBitsIter m).Wf m.length := by
  unfold intoBitsIter
  split
  · simp [BitsIter.Wf]
  · simp [BitsIter.Wf, h]

theorem intoBitsIter_rem {m : Mask} (h : 0 < m.length) : (intoBitsIter m).rem = m.ones := by
  unfold intoBitsIter
  split
  · simp [BitsIter.rem, ones_cons]; simp [Mask.ones]
  · match m, h with
    | w :: ws, _ =>
      rw [← onesFrom_zero]
      simp [BitsIter.rem]

theorem empty_wf {n : Nat} (h : 0 < n) : (BitsIter.empty n).Wf n := by
  unfold BitsIter.empty
  split <;> simp_all [BitsIter.Wf] <;> omega

theorem empty_rem {n : Nat} (h : 0 < n) : (BitsIter.empty n).rem = [] := by
  unfold BitsIter.empty
  split
  · simp [BitsIter.rem]
  · simp only [BitsIter.rem]
    have : (List.replicate n (0 : Word)).headD 0 = 0 := by
      cases n <;> simp [List.replicate_succ]
    rw [this, List.drop_eq_nil_of_le (by simp; omega)]
    simp [onesFrom]

theorem nextLoop_spec : ∀ (fuel : Nat) (q : ArrayQueue) (N : Nat), q.iters.length = N →
    q.idx < N → N - q.idx < fuel →
    ∃ q', ArrayQueue.nextLoop fuel q = .ok ((BitsIter.arr q).rem.head?, q') ∧
      (BitsIter.arr q').Wf N ∧ (BitsIter.arr q').rem = (BitsIter.arr q).rem.tail := by
  intro fuel
  induction fuel with
  | zero => intro q N _ _ h; omega
  | succ fuel ih =>
    intro q N hlen hidx hf
    obtain ⟨iters, idx⟩ := q
    simp only at hlen hidx hf
    match iters, hlen with
    | [], hlen => simp at hlen; omega
    | w :: ws, hlen =>
      unfold ArrayQueue.nextLoop
      simp only [getP, List.getElem?_cons_zero, bind_ok]
      by_cases hw : w = 0
      · subst hw
        have hn : OneBitsIter.next (0 : Word) = (none, 0) := rfl
        simp only [hn, List.set_cons_zero]
        by_cases hlast : idx = N - 1
        · rw [if_pos (by rw [hlen]; exact hlast)]
          refine ⟨⟨0 :: ws, idx⟩, ?_, ⟨hlen, hidx⟩, ?_⟩
          · simp only [pure_eq_ok, BitsIter.rem, List.headD_cons, onesFrom, wones_zero',
              List.map_nil, List.nil_append]
            rw [List.drop_eq_nil_of_le (by omega)]
            rfl
          · simp only [BitsIter.rem, List.headD_cons, onesFrom, wones_zero',
              List.map_nil, List.nil_append]
            rw [List.drop_eq_nil_of_le (by omega)]
            rfl
        · rw [if_neg (by rw [hlen]; exact hlast)]
          have hi1 : idx + 1 < (0 :: ws).length := by omega
          rw [getU_ok hi1, bind_ok]
          obtain ⟨q', e, hwf, hr⟩ := ih ⟨((0 : Word) :: ws)[idx + 1] :: ws, idx + 1⟩ N
            (by simpa using hlen) (by simp; omega) (by simp; omega)
          have hrem : (BitsIter.arr ⟨((0 : Word) :: ws)[idx + 1] :: ws, idx + 1⟩).rem
              = (BitsIter.arr ⟨0 :: ws, idx⟩).rem := by
            simp only [BitsIter.rem, List.headD_cons]
            conv => rhs; rw [onesFrom]
            simp only [wones_zero', List.map_nil, List.nil_append]
            congr 1
            simp only [List.getElem_cons_succ, List.drop_succ_cons]
            exact (List.drop_eq_getElem_cons (by simp at hi1; omega)).symm
          rw [← hrem]
          exact ⟨q', e, hwf, hr⟩
      · have hn : OneBitsIter.next w = (some (tz w), clearLowest w) := by
          unfold OneBitsIter.next; rw [if_neg (by simpa using hw)]
        simp only [hn, List.set_cons_zero]
        refine ⟨⟨clearLowest w :: ws, idx⟩, ?_, ⟨hlen, hidx⟩, ?_⟩
        · simp only [pure_eq_ok, BitsIter.rem, List.headD_cons, onesFrom, wones_cons hw,
            List.map_cons, List.cons_append, List.head?_cons]
          congr 3; omega
        · simp only [BitsIter.rem, List.headD_cons, onesFrom, wones_cons hw,
            List.map_cons, List.cons_append, List.tail_cons, List.drop_succ_cons]

/-- `next` pops the head of the remaining bits. -/
theorem next_spec {N : Nat} {q : BitsIter} (h : q.Wf N) :
    ∃ q', q.next = .ok (q.rem.head?, q') ∧ q'.Wf N ∧ q'.rem = q.rem.tail := by
  cases q with
  | prim w =>
    refine ⟨.prim (OneBitsIter.next w).2, ?_, h, (oneBits_next w).2⟩
    simp only [BitsIter.next, BitsIter.rem, ← (oneBits_next w).1]
  | arr q =>
    obtain ⟨h1, h2⟩ := h
    obtain ⟨q', e, hwf, hr⟩ := nextLoop_spec (q.iters.length + 1) q N h1 h2 (by omega)
    refine ⟨.arr q', ?_, hwf, hr⟩
    simp only [BitsIter.next, ArrayQueue.next, e, bind_ok, pure_eq_ok]

theorem shl_allOnes_bit {n i : Nat} (hi : i < 64) :
    (BitVec.allOnes 64 <<< n).getLsbD i = decide (n ≤ i) := by
  rw [BitVec.getLsbD_shiftLeft, BitVec.getLsbD_allOnes]
  simp only [hi, decide_true, Bool.true_and]
  by_cases h : i < n
  · simp [h]
  · simp [h]; omega

theorem wones_and_shl (w : Word) (n : Nat) :
    wones (w &&& (BitVec.allOnes 64 <<< n)) = (wones w).filter (fun i => decide (n ≤ i)) := by
  unfold wones
  rw [List.filter_filter]
  apply List.filter_congr
  intro i hi
  rw [BitVec.getLsbD_and, shl_allOnes_bit (by simpa using hi), Bool.and_comm]

theorem onesFrom_ge (ws : List Word) : ∀ (i : Nat), ∀ x ∈ onesFrom i ws, 64 * i ≤ x := by
  induction ws with
  | nil => intro i x hx; simp [onesFrom] at hx
  | cons w ws ih =>
    intro i x hx
    simp only [onesFrom, List.mem_append, List.mem_map] at hx
    rcases hx with ⟨r, _, rfl⟩ | hx
    · omega
    · have := ih _ x hx; omega

theorem onesFrom_lt (ws : List Word) : ∀ (i : Nat), ∀ x ∈ onesFrom i ws,
    x < 64 * (i + ws.length) := by
  induction ws with
  | nil => intro i x hx; simp [onesFrom] at hx
  | cons w ws ih =>
    intro i x hx
    simp only [onesFrom, List.mem_append, List.mem_map] at hx
    rcases hx with ⟨r, hr, rfl⟩ | hx
    · have := BitVec.lt_of_getLsbD (mem_wones.1 hr); simp; omega
    · have := ih _ x hx; simp at this ⊢; omega

theorem filter_eq_self' {l : List Nat} {p : Nat → Bool} (h : ∀ x ∈ l, p x = true) :
    l.filter p = l := List.filter_eq_self.2 h

theorem filter_eq_nil' {l : List Nat} {p : Nat → Bool} (h : ∀ x ∈ l, p x = false) :
    l.filter p = [] := by
  rw [List.filter_eq_nil_iff]; intro a ha; simp [h a ha]

/-- skipping whole words: filtering bits ≥ n (n in word `e`) of words `i..` -/
theorem onesFrom_filter_skip (ws : List Word) : ∀ (i e n : Nat), i ≤ e → e = n / 64 →
    e - i < ws.length →
    (onesFrom i ws).filter (fun x => decide (n ≤ x)) =
      onesFrom e ((ws.getD (e - i) 0 &&& (BitVec.allOnes 64 <<< (n % 64))) ::
        ws.drop (e - i + 1)) := by
  induction ws with
  | nil => intro i e n _ _ h; simp at h
  | cons w ws ih =>
    intro i e n hie he hlt
    simp only [onesFrom, List.filter_append]
    by_cases hc : i = e
    · subst hc
      simp only [Nat.sub_self, List.getD_cons_zero, Nat.zero_add, List.drop_succ_cons,
        List.drop_zero, wones_and_shl]
      congr 1
      · rw [List.filter_map]
        congr 1
        apply List.filter_congr
        intro x hx
        have := BitVec.lt_of_getLsbD (mem_wones.1 hx)
        simp only [Function.comp]
        congr 1; apply propext; omega
      · apply filter_eq_self'
        intro x hx
        have := onesFrom_ge ws _ x hx
        simp; omega
    · have h1 : ((wones w).map (fun r => 64 * i + r)).filter (fun x => decide (n ≤ x)) = [] := by
        apply filter_eq_nil'
        intro x hx
        simp only [List.mem_map] at hx
        obtain ⟨r, hr, rfl⟩ := hx
        have := BitVec.lt_of_getLsbD (mem_wones.1 hr)
        simp; omega
      rw [h1, List.nil_append, ih (i + 1) e n (by omega) he (by simp at hlt; omega)]
      have e1 : e - i = (e - (i + 1)) + 1 := by omega
      rw [e1]
      simp [onesFrom]

theorem trimTo_spec {N : Nat} {q : BitsIter} (h : q.Wf N) (n : Nat) :
    ∃ q', q.trimTo n = .ok q' ∧ q'.Wf N ∧ q'.rem = q.rem.filter (fun x => decide (n ≤ x)) := by
  cases q with
  | prim w =>
    by_cases hn : n ≥ 64
    · refine ⟨.prim (w &&& 0), by simp [BitsIter.trimTo, saturatingShl, hn], h, ?_⟩
      simp only [BitsIter.rem]
      rw [filter_eq_nil']
      · simp
      · intro x hx
        have := BitVec.lt_of_getLsbD (mem_wones.1 hx)
        simp; omega
    · refine ⟨.prim (w &&& (BitVec.allOnes 64 <<< n)), ?_, h, ?_⟩
      · have : n < 64 := by omega
        simp only [BitsIter.trimTo, saturatingShl, if_neg hn, shlP, if_pos this, bind_ok, pure_eq_ok]
      · simp only [BitsIter.rem, wones_and_shl]
  | arr q =>
    obtain ⟨h1, h2⟩ := h
    obtain ⟨iters, idx⟩ := q
    simp only at h1 h2
    match iters, h1 with
    | [], h1 => simp at h1; omega
    | w :: ws, h1 =>
      simp only [BitsIter.trimTo, ArrayQueue.trimTo]
      by_cases c1 : n / (8 * 8) ≥ (w :: ws).length
      · rw [if_pos c1]
        refine ⟨.arr ⟨0 :: ws, N - 1⟩, by simp [← h1], ⟨h1, by show N - 1 < N; omega⟩, ?_⟩
        rw [filter_eq_nil']
        · simp only [BitsIter.rem, List.headD_cons, onesFrom, wones_zero', List.map_nil,
            List.nil_append]
          rw [List.drop_eq_nil_of_le (by simp at h1 ⊢; omega)]
          rfl
        · intro x hx
          have := onesFrom_lt _ _ x hx
          simp at this c1 h1
          simp; omega
      · rw [if_neg c1]
        by_cases c2 : n / (8 * 8) < idx
        · rw [if_pos c2]
          refine ⟨.arr ⟨w :: ws, idx⟩, rfl, ⟨h1, h2⟩, ?_⟩
          rw [filter_eq_self']
          intro x hx
          have := onesFrom_ge _ _ x hx
          simp at this ⊢; omega
        · rw [if_neg c2]
          have hb : n % (8 * 8) < 64 := by omega
          simp at c1
          have key := onesFrom_filter_skip (w :: ws.drop idx) idx (n / 64) n (by omega) rfl
            (by simp at h1 ⊢; omega)
          by_cases c3 : n / (8 * 8) = idx
          · refine ⟨.arr ⟨(w &&& (BitVec.allOnes 64 <<< (n % 64))) :: ws, idx⟩, ?_, ⟨h1, h2⟩, ?_⟩
            · rw [if_neg (by simp [c3])]
              simp [getP, shlP, hb]
            · have c3' : n / 64 = idx := by omega
              simp only [BitsIter.rem, List.headD_cons, List.drop_succ_cons]
              rw [key, c3']
              simp
          · rw [if_pos (by simpa using c3)]
            have hlt : n / (8 * 8) < (w :: ws).length := by simp; omega
            rw [getU_ok hlt]
            refine ⟨.arr ⟨((w :: ws)[n / (8 * 8)] &&& (BitVec.allOnes 64 <<< (n % 64))) :: ws,
              n / (8 * 8)⟩, ?_, ⟨h1, by show n / (8*8) < N; omega⟩, ?_⟩
            · simp [getP, shlP, hb]
            · simp only [BitsIter.rem, List.headD_cons, List.drop_succ_cons]
              rw [key]
              have e1 : n / 64 - idx = (n / 64 - idx - 1) + 1 := by omega
              have e2 : idx + (n / 64 - idx - 1) = n / 64 - 1 := by omega
              have e3 : n / (8 * 8) = (n / 64 - 1) + 1 := by omega
              have hl2 : n / 64 - 1 < ws.length := by simp at hlt; omega
              have g1 : (w :: ws)[n / (8 * 8)] = (w :: ws.drop idx).getD (n / 64 - idx) 0 := by
                rw [e1, List.getD_cons_succ, List.getD_eq_getElem?_getD, List.getElem?_drop, e2,
                  List.getElem?_eq_getElem hl2]
                rw [Option.getD_some]
                have : (w :: ws)[n / (8 * 8)]? = ws[n / 64 - 1]? := by
                  rw [e3, List.getElem?_cons_succ, Nat.add_sub_cancel]
                rw [List.getElem?_eq_getElem hlt, List.getElem?_eq_getElem hl2] at this
                exact Option.some.inj this
              have g2 : ws.drop (n / (8 * 8)) = (w :: ws.drop idx).drop (n / 64 - idx + 1) := by
                rw [List.drop_succ_cons, List.drop_drop]; congr 1; omega
              rw [g1, g2]

theorem traverse_spec {σ : Type} {N : Nat} {q : BitsIter} (h : q.Wf N)
    (f : σ → Nat → σ × Bool) (s : σ) :
    q.traverse f s = .ok (feed f s q.rem) := by
  cases q with
  | prim w => exact traverseOneBits_eq f s w
  | arr q =>
    obtain ⟨h1, h2⟩ := h
    obtain ⟨iters, idx⟩ := q
    simp only at h1 h2
    match iters, h1 with
    | [], h1 => simp at h1; omega
    | w :: ws, h1 =>
      have hi : idx < (w :: ws).length := by omega
      simp only [BitsIter.traverse, getP, List.getElem?_cons_zero, bind_ok, setU_ok w hi,
        traverseArrayOneBits]
      rw [traverseArrayFrom_eq, feed_map f (fun i => idx * 8 * 8 + i)]
      congr 2
      simp only [BitsIter.rem, List.headD_cons]
      have : (fun i => idx * 8 * 8 + i) = (fun r => 64 * idx + r) := by funext r; omega
      rw [this, ← onesFrom_shift, Nat.add_zero]
      congr 1
      rw [List.take_of_length_le (by simp)]
      apply List.ext_getElem?
      intro j
      rw [List.getElem?_drop, List.getElem?_set]
      cases j with
      | zero => simpa using hi
      | succ j =>
        have : idx ≠ idx + (j + 1) := by omega
        simp only [this, if_false, List.getElem?_cons_succ, List.getElem?_drop]
        congr 1; omega

end Hibit
