import Verif.Cluster.Model
import Verif.Small.Lemmas
import Verif.MapSpec
/-!
# `ClusterBlock`: what it represents while its pieces are filled in ascending order
-/
namespace Hibit.Cluster
open Hibit Hibit.Small

theorem subMask_eq {m : Mask} {N k : Nat} (hm : m.length = N) (hk : k < 4 * N) :
    ∃ s, subMask m k = .ok s ∧ ∀ j, j < 16 → s.getLsbD j = m.bit (16 * k + j) := by
  have h4 : k / 4 < m.length := by omega
  refine ⟨(m[k / 4]).extractLsb' (16 * (k % 4)) 16, by simp [subMask, getU_ok h4], ?_⟩
  intro j hj
  have h1 : (16 * k + j) / 64 = k / 4 := by omega
  have h2 : (16 * k + j) % 64 = 16 * (k % 4) + j := by omega
  rw [BitVec.getLsbD_extractLsb', bit_eq m (by omega)]
  simp only [h1, h2, hj, decide_true, Bool.true_and]

theorem orSubMask_eq {m : Mask} {N k j : Nat} (hm : m.length = N) (hk : k < 4 * N) (hj : j < 16) :
    ∃ m', orSubMask m k (1#16 <<< j) = .ok m' ∧ m'.length = N ∧
      ∀ i, m'.bit i = (m.bit i || decide (i = 16 * k + j)) := by
  have h4 : k / 4 < m.length := by omega
  refine ⟨m.set (k / 4) (m[k / 4] ||| ((1#16 <<< j).setWidth 64 <<< (16 * (k % 4)))),
    by simp only [orSubMask, getU_ok h4, bind_ok, setU_ok _ h4], by simpa using hm, ?_⟩
  intro i
  by_cases hi : i / 64 = k / 4
  · have hi' : i / 64 < m.length := by omega
    rw [bit_eq m hi', bit_eq _ (by simpa using hi')]
    simp only [hi, List.getElem_set_self, BitVec.getLsbD_or]
    congr 1
    rw [BitVec.getLsbD_shiftLeft, BitVec.getLsbD_setWidth, BitVec.getLsbD_shiftLeft]
    have e : (BitVec.getLsbD 1#16 (i % 64 - 16 * (k % 4) - j)) =
        decide (i % 64 - 16 * (k % 4) - j = 0) := by simp
    rw [e, Bool.eq_iff_iff]
    simp only [Bool.and_eq_true, decide_eq_true_eq, Bool.not_eq_true', decide_eq_false_iff_not]
    omega
  · have : i ≠ 16 * k + j := by omega
    simp only [this, decide_false, Bool.or_false]
    unfold Mask.bit
    simp only [List.getD_eq_getElem?_getD]
    rw [List.getElem?_set_ne (by omega)]

theorem pop16_below {s : Sub} {g : Nat → Bool} (h : ∀ j, j < 16 → s.getLsbD j = g j) {j : Nat}
    (hj : j < 16) :
    pop16 (s &&& ~~~ (BitVec.allOnes 16 <<< j)) = (List.range j).countP g := by
  have hr : List.range 16 = List.range j ++ (List.range (16 - j)).map (j + ·) := by
    rw [← List.range_add]; congr 1; omega
  unfold pop16
  rw [hr, List.countP_append]
  have h1 : ((List.range (16 - j)).map (j + ·)).countP
      (fun i => (s &&& ~~~ (BitVec.allOnes 16 <<< j)).getLsbD i) = 0 := by
    rw [List.countP_eq_zero]
    intro i hi
    simp only [List.mem_map, List.mem_range] at hi
    obtain ⟨a, ha, rfl⟩ := hi
    simp only [BitVec.getLsbD_and, BitVec.getLsbD_not, BitVec.getLsbD_shiftLeft, BitVec.getLsbD_allOnes]
    simp [show j + a < 16 by omega]
    intro _; omega
  rw [h1, Nat.add_zero]
  apply List.countP_congr
  intro i hi
  simp only [List.mem_range] at hi
  simp only [BitVec.getLsbD_and, h i (by omega), BitVec.getLsbD_not, BitVec.getLsbD_shiftLeft]
  simp [hi, show i < 16 by omega]

theorem bit_test {s : Sub} {j : Nat} (hj : j < 16) :
    (s &&& (1#16 <<< j) == 0) = !(s.getLsbD j) := by
  rw [Bool.eq_iff_iff]
  simp only [beq_iff_eq, Bool.not_eq_true']
  constructor
  · intro h
    have := congrArg (fun x => x.getLsbD j) h
    simpa [hj] using this
  · intro h
    apply BitVec.eq_of_getLsbD_eq
    intro i hi
    by_cases hij : i = j
    · subst hij; simp [h]
    · simp only [BitVec.getLsbD_and, BitVec.getLsbD_shiftLeft]
      have : ∀ x : Nat, (1#16).getLsbD x = decide (x = 0) := by intro x; simp
      rw [this]
      simp
      intro _ _ _
      omega

theorem sub_zero {s : Sub} : (s == 0) = true ↔ ∀ j, j < 16 → s.getLsbD j = false := by
  simp only [beq_iff_eq]
  constructor
  · rintro rfl j _; simp
  · intro h
    apply BitVec.eq_of_getLsbD_eq
    intro i hi
    rw [h i hi]; simp

/-- The items of piece `k`. -/
def piece (f : Nat → Option Nat) (k : Nat) : Nat → Option Nat := fun j => f (16 * k + j)

/-- Does piece `k` hold an item? -/
def busy (f : Nat → Option Nat) (k : Nat) : Bool := (List.range 16).any fun j => (f (16 * k + j)).isSome

/-- The number of pieces that hold an item. -/
def busyCount (N : Nat) (f : Nat → Option Nat) : Nat := (List.range (4 * N)).countP (busy f)

/-- The block holds the map `f`, every piece in order, with zeros behind. -/
structure Rep (N : Nat) (b : CB) (f : Nat → Option Nat) : Prop where
  mlen : b.mask.length = N
  bits : ∀ i, b.mask.bit i = (f i).isSome
  slen : b.subs.length = 4 * N
  cells : ∀ k, k < 4 * N → busy f k = true → ∃ p, b.subs[k]? = some p ∧
    b.storage[p]? = some ((List.range 16).filterMap (piece f k) ++
      List.replicate (16 - cnt (piece f k) 16) 0)
  inj : ∀ k k', k < 4 * N → k' < 4 * N → busy f k = true → busy f k' = true →
    b.subs[k]? = b.subs[k']? → k = k'
  count : b.storage.length = busyCount N f

theorem busy_eq {f : Nat → Option Nat} {k : Nat} :
    busy f k = true ↔ ∃ j, j < 16 ∧ (f (16 * k + j)).isSome = true := by
  simp [busy]

theorem busy_of {f : Nat → Option Nat} {i v : Nat} (h : f i = some v) : busy f (i / 16) = true :=
  busy_eq.2 ⟨i % 16, Nat.mod_lt _ (by decide), by
    rw [show 16 * (i / 16) + i % 16 = i by omega, h]; rfl⟩

theorem Rep.empty (N : Nat) : Rep N (CB.empty N) (fun _ => none) where
  mlen := by simp [CB.empty, zeroMask]
  bits := by
    intro i
    simp only [CB.empty, Option.isSome_none]
    unfold Mask.bit zeroMask
    simp only [List.getD_eq_getElem?_getD, List.getElem?_replicate]
    split <;> simp
  slen := by simp [CB.empty]
  cells := by intro k _ h; simp [busy] at h
  inj := by intro k _ _ _ h; simp [busy] at h
  count := by
    symm
    show busyCount N _ = 0
    unfold busyCount
    rw [List.countP_eq_zero]
    intro k _; simp [busy]

section
variable {N : Nat} {b : CB} {f : Nat → Option Nat}

theorem Rep.sub (h : Rep N b f) {k : Nat} (hk : k < 4 * N) :
    ∃ s, subMask b.mask k = .ok s ∧ ∀ j, j < 16 → s.getLsbD j = (piece f k j).isSome := by
  obtain ⟨s, e, hs⟩ := subMask_eq h.mlen hk
  exact ⟨s, e, fun j hj => by rw [hs j hj, h.bits]; rfl⟩

theorem countP_isSome (g : Nat → Option Nat) (j : Nat) :
    (List.range j).countP (fun j => (g j).isSome) = cnt g j := by
  unfold cnt
  rw [List.length_filterMap_eq_countP]

theorem cnt_piece_le (g : Nat → Option Nat) (n : Nat) : cnt g n ≤ n := by
  unfold cnt
  have := List.length_filterMap_le g (List.range n)
  simpa using this

theorem items_get {g : Nat → Option Nat} {W j v : Nat} (hj : j < W) (h : g j = some v) :
    ((List.range W).filterMap g)[cnt g j]? = some v := by
  unfold cnt
  rw [split_at g hj, h, List.getElem?_append_right (Nat.le_refl _)]
  simp

theorem cell_get {g : Nat → Option Nat} {j v : Nat} (hj : j < 16) (h : g j = some v) :
    ((List.range 16).filterMap g ++ List.replicate (16 - cnt g 16) 0)[cnt g j]? = some v := by
  have := items_get hj h
  rw [List.getElem?_append_left (List.getElem?_eq_some_iff.1 this).1, this]

/-- What a read at an occupied position does. -/
theorem getOrZero_raw {b : CB} {g : Nat → Option Nat} (hm : b.mask.length = N)
    (hb : ∀ i, b.mask.bit i = (g i).isSome) {i p : Nat} {cells : List Nat} (hi : i < 64 * N)
    (hg : (g i).isSome = true) (hp : b.subs[i / 16]? = some p) (hc : b.storage[p]? = some cells) :
    b.getOrZero i = getU cells (cnt (piece g (i / 16)) (i % 16)) := by
  obtain ⟨s, e, hs⟩ := subMask_eq (k := i / 16) hm (by omega)
  have hs' : ∀ j, j < 16 → s.getLsbD j = (piece g (i / 16) j).isSome :=
    fun j hj => by rw [hs j hj, hb]; rfl
  have hj : i % 16 < 16 := Nat.mod_lt _ (by decide)
  have hfi : piece g (i / 16) (i % 16) = g i := by
    unfold piece; congr 1; omega
  unfold CB.getOrZero
  simp only [e, bind_ok, bit16, hj, if_true, bit_test hj, hs' _ hj, hfi, hg, Bool.not_true,
    Bool.false_eq_true, if_false, lowMask16, pop16_below hs' hj, countP_isSome, getU_some hp, getU_some hc]

theorem Rep.getOrZero (h : Rep N b f) {i : Nat} (hi : i < 64 * N) :
    b.getOrZero i = .ok ((f i).getD 0) := by
  obtain ⟨s, e, hs⟩ := h.sub (k := i / 16) (by omega)
  have hj : i % 16 < 16 := Nat.mod_lt _ (by decide)
  have hfi : piece f (i / 16) (i % 16) = f i := by
    unfold piece; congr 1; omega
  unfold CB.getOrZero
  simp only [e, bind_ok, bit16, hj, if_true, bit_test hj, hs _ hj, hfi]
  cases hf : f i with
  | none => simp
  | some v =>
    obtain ⟨p, h1, h2⟩ := h.cells (i / 16) (by omega) (busy_of hf)
    simp only [Option.isSome_some, Bool.not_true, Bool.false_eq_true, if_false, lowMask16, hj, if_true,
      bind_ok, pop16_below hs hj, countP_isSome, getU_some h1, getU_some h2]
    rw [getU_some (cell_get hj (hfi.trans hf))]; rfl

theorem piece_upd_same {i v : Nat} :
    piece (Dense.upd f i (some v)) (i / 16) = Dense.upd (piece f (i / 16)) (i % 16) (some v) := by
  funext j
  by_cases hj : j = i % 16
  · subst hj
    simp only [Dense.upd_same]
    unfold piece
    rw [show 16 * (i / 16) + i % 16 = i by omega, Dense.upd_same]
  · rw [Dense.upd_ne _ _ hj]
    unfold piece
    rw [Dense.upd_ne _ _ (by omega)]

theorem piece_upd_lt {i v k j : Nat} (hk : k ≠ i / 16) (hj : j < 16) :
    piece (Dense.upd f i (some v)) k j = piece f k j := by
  unfold piece
  rw [Dense.upd_ne _ _ (by omega)]

theorem busy_upd {i v k : Nat} :
    busy (Dense.upd f i (some v)) k = (busy f k || decide (k = i / 16)) := by
  by_cases hk : k = i / 16
  · simp only [hk, decide_true, Bool.or_true]
    exact busy_of (v := v) (by simp)
  · simp only [hk, decide_false, Bool.or_false]
    rw [Bool.eq_iff_iff, busy_eq, busy_eq]
    constructor <;> rintro ⟨j, hj, h⟩ <;> refine ⟨j, hj, ?_⟩
    · rw [Dense.upd_ne _ _ (by omega)] at h; exact h
    · rw [Dense.upd_ne _ _ (by omega)]; exact h

theorem countP_or {p : Nat → Bool} {n k : Nat} (hk : k < n) :
    (List.range n).countP (fun x => p x || decide (x = k)) =
      (List.range n).countP p + if p k then 0 else 1 := by
  have hr : List.range n = List.range k ++ (k :: (List.range (n - k - 1)).map (· + (k + 1))) :=
    range_split hk
  rw [hr, List.countP_append, List.countP_append, List.countP_cons, List.countP_cons]
  have h1 : (List.range k).countP (fun x => p x || decide (x = k)) = (List.range k).countP p := by
    apply List.countP_congr
    intro x hx
    simp only [List.mem_range] at hx
    simp [show x ≠ k by omega]
  have h2 : ((List.range (n - k - 1)).map (· + (k + 1))).countP (fun x => p x || decide (x = k)) =
      ((List.range (n - k - 1)).map (· + (k + 1))).countP p := by
    apply List.countP_congr
    intro x hx
    simp only [List.mem_map] at hx
    obtain ⟨a, -, rfl⟩ := hx
    simp [show a + (k + 1) ≠ k by omega]
  rw [h1, h2]
  cases p k <;> simp <;> omega

theorem busyCount_upd {i v : Nat} (hi : i < 64 * N) :
    busyCount N (Dense.upd f i (some v)) = busyCount N f + if busy f (i / 16) then 0 else 1 := by
  unfold busyCount
  rw [← countP_or (p := busy f) (show i / 16 < 4 * N by omega)]
  congr 1
  funext k
  exact busy_upd

theorem copyCells_zero {cells : List Nat} {r : Nat} (h : r < cells.length) :
    copyCells cells r (r + 1) 0 = .ok cells := by
  simp [copyCells]; omega

/-- The call at the level of the array of the piece: the new item is written at the number of items
below it; nothing is moved. -/
theorem Rep.getOrInsert_raw (h : Rep N b f) {i v : Nat} (hi : i < 64 * N)
    (hroom : busy f (i / 16) = true ∨ busyCount N f < 4) :
    ∃ (b' : CB) (p : Nat), b.getOrInsert i v = .ok (v, true, b') ∧ b'.mask.length = N ∧
      (∀ j, b'.mask.bit j = ((f j).isSome || decide (j = i))) ∧ b'.subs.length = 4 * N ∧
      b'.subs[i / 16]? = some p ∧
      (busy f (i / 16) = true → b'.subs = b.subs ∧ b'.storage.length = b.storage.length) ∧
      (busy f (i / 16) = false → b'.storage.length = b.storage.length + 1 ∧ p = b.storage.length) ∧
      (∀ k, k ≠ i / 16 → b'.subs[k]? = b.subs[k]?) ∧
      b'.storage[p]? = some (((List.range 16).filterMap (piece f (i / 16)) ++
        List.replicate (16 - cnt (piece f (i / 16)) 16) 0).set (cnt (piece f (i / 16)) (i % 16)) v) ∧
      ∀ q, q < b.storage.length → q ≠ p → b'.storage[q]? = b.storage[q]? := by
  have hk : i / 16 < 4 * N := by omega
  have hj : i % 16 < 16 := Nat.mod_lt _ (by decide)
  obtain ⟨s, e, hs⟩ := h.sub hk
  have hz : (s == 0) = !busy f (i / 16) := by
    rw [Bool.eq_iff_iff, sub_zero]
    simp only [Bool.not_eq_true']
    constructor
    · intro hh
      cases hb : busy f (i / 16) with
      | false => rfl
      | true =>
        obtain ⟨j, h1, h2⟩ := busy_eq.1 hb
        have := hh j h1
        rw [hs j h1] at this
        unfold piece at this
        rw [this] at h2; cases h2
    · intro hb j h1
      cases e : s.getLsbD j with
      | false => rfl
      | true =>
        rw [hs j h1] at e
        rw [busy_eq.2 ⟨j, h1, e⟩] at hb; cases hb
  obtain ⟨m', em, hml, hmb⟩ := orSubMask_eq (m := b.mask) h.mlen hk hj
  have hmb' : ∀ j, m'.bit j = ((f j).isSome || decide (j = i)) := by
    intro j
    rw [hmb, h.bits, show 16 * (i / 16) + i % 16 = i by omega]
  have hlow : ((s &&& ~~~ (BitVec.allOnes 16 <<< (i % 16))) &&& (1#16 <<< (i % 16)) == 0) = true := by
    rw [bit_test hj]
    simp [hj]
  have hlen : ((List.range 16).filterMap (piece f (i / 16)) ++
        List.replicate (16 - cnt (piece f (i / 16)) 16) 0).length = 16 := by
    have : ((List.range 16).filterMap (piece f (i / 16))).length = cnt (piece f (i / 16)) 16 := rfl
    have h2 := cnt_piece_le (piece f (i / 16)) 16
    rw [List.length_append, List.length_replicate, this]; omega
  have hrank : cnt (piece f (i / 16)) (i % 16) < 16 := by
    have := cnt_piece_le (piece f (i / 16)) (i % 16); omega
  -- after locating, the piece's array
  have key : ∀ (p : Nat) (b1 : CB), b.locate (i / 16) s = .ok (p, b1) → b1.mask = b.mask →
      b1.storage[p]? = some ((List.range 16).filterMap (piece f (i / 16)) ++
        List.replicate (16 - cnt (piece f (i / 16)) 16) 0) →
      b.getOrInsert i v = .ok (v, true, CB.mk m' b1.subs
        (b1.storage.set p (((List.range 16).filterMap (piece f (i / 16)) ++
        List.replicate (16 - cnt (piece f (i / 16)) 16) 0).set (cnt (piece f (i / 16)) (i % 16)) v))) := by
    intro p b1 el hm hst
    have hp : p < b1.storage.length := (List.getElem?_eq_some_iff.1 hst).1
    unfold CB.getOrInsert
    simp only [e, bind_ok, el, getU_some hst, lowMask16, hj, if_true, bit16, hlow, hm, em,
      pop16_below hs hj, countP_isSome, Small.subUsize, Nat.le_refl, Nat.sub_self]
    rw [copyCells_zero (by rw [hlen]; exact hrank)]
    simp only [bind_ok]
    rw [setU_ok _ (by rw [hlen]; exact hrank)]
    simp only [bind_ok, setU_ok _ hp]
    rfl
  cases hb : busy f (i / 16) with
  | true =>
    obtain ⟨p, h1, h2⟩ := h.cells _ hk hb
    have hp : p < b.storage.length := (List.getElem?_eq_some_iff.1 h2).1
    refine ⟨_, p, key p b (by simp only [CB.locate, hz, hb, Bool.not_true, Bool.false_eq_true, if_false, getU_some h1]; rfl) rfl h2, hml, hmb', h.slen, h1,
      ?_, ?_, fun _ _ => rfl, ?_, ?_⟩
    · intro _; exact ⟨rfl, by simp⟩
    · intro hh; cases hh
    · show (b.storage.set _ _)[p]? = _
      rw [List.getElem?_set_self hp]
    · intro q hq hqp
      show (b.storage.set _ _)[q]? = _
      rw [List.getElem?_set_ne (by omega)]
  | false =>
    have hroom' : b.storage.length < 4 := by
      rw [h.count]
      rcases hroom with hh | hh
      · rw [hb] at hh; cases hh
      · exact hh
    have hnil : (List.range 16).filterMap (piece f (i / 16)) = [] := by
      rw [List.filterMap_eq_nil_iff]
      intro j hj'
      simp only [List.mem_range] at hj'
      cases ef : piece f (i / 16) j with
      | none => rfl
      | some w =>
        exfalso
        rw [busy_eq.2 ⟨j, hj', by unfold piece at ef; rw [ef]; rfl⟩] at hb
        cases hb
    have hcz : cnt (piece f (i / 16)) 16 = 0 := by unfold cnt; rw [hnil]; rfl
    have hst : (b.storage ++ [List.replicate 16 0])[b.storage.length]? =
        some ((List.range 16).filterMap (piece f (i / 16)) ++
        List.replicate (16 - cnt (piece f (i / 16)) 16) 0) := by
      rw [hnil, hcz]; simp
    refine ⟨_, b.storage.length, key b.storage.length
      ⟨b.mask, b.subs.set (i / 16) b.storage.length, b.storage ++ [List.replicate 16 0]⟩ ?_ rfl hst,
      hml, hmb', by simpa using h.slen, ?_, ?_, ?_, ?_, ?_, ?_⟩
    · simp only [CB.locate, hz, hb, Bool.not_false, if_true, hroom', List.length_append,
        List.length_singleton, Nat.add_sub_cancel]
      rw [setU_ok _ (by rw [h.slen]; exact hk)]
      rfl
    · show (b.subs.set _ _)[i / 16]? = _
      rw [List.getElem?_set_self (by rw [h.slen]; exact hk)]
    · intro hh; cases hh
    · intro _; exact ⟨by simp, rfl⟩
    · intro k hk'
      show (b.subs.set _ _)[k]? = _
      rw [List.getElem?_set_ne (by omega)]
    · show ((b.storage ++ _).set _ _)[_]? = _
      rw [List.getElem?_set_self (by simp)]
    · intro q hq hqp
      show ((b.storage ++ _).set _ _)[_]? = _
      rw [List.getElem?_set_ne (by omega), List.getElem?_append_left hq]

/-- A piece filled in ascending order: the new item goes behind the others. -/
theorem set_behind {g : Nat → Option Nat} {j v : Nat} (hj : j < 16) (ha : ∀ j', j ≤ j' → j' < 16 → g j' = none) :
    ((List.range 16).filterMap g ++ List.replicate (16 - cnt g 16) 0).set (cnt g j) v =
      (List.range 16).filterMap (Dense.upd g j (some v)) ++
        List.replicate (16 - cnt (Dense.upd g j (some v)) 16) 0 := by
  have hn : aboveN g 16 j = [] := by
    unfold aboveN
    rw [List.filterMap_eq_nil_iff]
    intro a ha'
    simp only [List.mem_map, List.mem_range] at ha'
    obtain ⟨x, hx, rfl⟩ := ha'
    exact ha _ (by omega) (by omega)
  have hgj : g j = none := ha j (Nat.le_refl _) hj
  have hle := cnt_piece_le g j
  rw [cnt_insert v hgj hj, split_at g hj, split_at (Dense.upd g j (some v)) hj, Dense.upd_same, above_upd, hn,
    filterMap_upd (by intro a ha'; simp at ha'; omega), cnt_split g hj, hgj, hn]
  simp only [Option.toList_none, List.append_nil, List.length_nil, Nat.add_zero, Option.toList_some]
  have e : 16 - cnt g j = (16 - (cnt g j + 1)) + 1 := by omega
  rw [e, List.replicate_succ, List.set_append_right _ _ (show ((List.range j).filterMap g).length ≤ cnt g j
    from Nat.le_refl _)]
  simp [cnt]

theorem Rep.insert (h : Rep N b f) {i : Nat} (v : Nat) (hi : i < 64 * N)
    (ha : ∀ j, i ≤ j → j / 16 = i / 16 → f j = none)
    (hroom : busyCount N (Dense.upd f i (some v)) ≤ 4) :
    ∃ b', b.getOrInsert i v = .ok (v, true, b') ∧ Rep N b' (Dense.upd f i (some v)) := by
  have hk : i / 16 < 4 * N := by omega
  have hj : i % 16 < 16 := Nat.mod_lt _ (by decide)
  have hcu := busyCount_upd (N := N) (f := f) (v := v) hi
  obtain ⟨b', p, e, hml, hmb, hsl, hp, ht, hf, hsub, hst, hother⟩ := h.getOrInsert_raw (v := v) hi (by
    cases hb : busy f (i / 16) with
    | true => exact .inl rfl
    | false => rw [hb] at hcu; simp at hcu; right; omega)
  -- the array used is not that of another busy piece
  have hfresh : ∀ k q, k < 4 * N → busy f k = true → k ≠ i / 16 → b.subs[k]? = some q →
      q < b.storage.length → q ≠ p := by
    intro k q hk' hb hne hq hlt
    cases hbi : busy f (i / 16) with
    | true =>
      rintro rfl
      obtain ⟨e1, _⟩ := ht hbi
      rw [e1] at hp
      exact hne (h.inj k _ hk' hk hb hbi (by rw [hq, hp]))
    | false =>
      have := (hf hbi).2
      omega
  refine ⟨b', e, hml, ?_, hsl, ?_, ?_, ?_⟩
  · intro j
    rw [hmb]
    by_cases hji : j = i
    · subst hji; simp
    · rw [Dense.upd_ne _ _ hji]; simp [hji]
  · intro k hk' hb
    by_cases hki : k = i / 16
    · subst hki
      refine ⟨p, hp, ?_⟩
      rw [hst, piece_upd_same, set_behind hj]
      intro j' h1 h2
      exact ha _ (by omega) (by omega)
    · rw [busy_upd] at hb
      simp only [hki, decide_false, Bool.or_false] at hb
      obtain ⟨q, h1, h2⟩ := h.cells k hk' hb
      have hq := (List.getElem?_eq_some_iff.1 h2).1
      refine ⟨q, by rw [hsub k hki, h1], ?_⟩
      rw [hother q hq (hfresh k q hk' hb hki h1 hq), h2]
      have hfm : (List.range 16).filterMap (piece (Dense.upd f i (some v)) k) =
          (List.range 16).filterMap (piece f k) :=
        filterMap_congr_mem fun j hj => piece_upd_lt hki (List.mem_range.1 hj)
      rw [hfm]
      unfold cnt
      rw [hfm]
  · intro k k' hk1 hk2 hb1 hb2 heq
    rw [busy_upd] at hb1 hb2
    by_cases h1 : k = i / 16
    · by_cases h2 : k' = i / 16
      · omega
      · exfalso
        simp only [h2, decide_false, Bool.or_false] at hb2
        obtain ⟨q, g1, g2⟩ := h.cells k' hk2 hb2
        rw [h1, hp, hsub k' h2, g1] at heq
        exact hfresh k' q hk2 hb2 h2 g1 (List.getElem?_eq_some_iff.1 g2).1 (Option.some.inj heq).symm
    · simp only [h1, decide_false, Bool.or_false] at hb1
      by_cases h2 : k' = i / 16
      · exfalso
        obtain ⟨q, g1, g2⟩ := h.cells k hk1 hb1
        rw [h2, hp, hsub k h1, g1] at heq
        exact hfresh k q hk1 hb1 h1 g1 (List.getElem?_eq_some_iff.1 g2).1 (Option.some.inj heq)
      · simp only [h2, decide_false, Bool.or_false] at hb2
        rw [hsub k h1, hsub k' h2] at heq
        exact h.inj k k' hk1 hk2 hb1 hb2 heq
  · rw [hcu, ← h.count]
    cases hb : busy f (i / 16) with
    | true => simp [(ht hb).2]
    | false => simp [(hf hb).1]

end

end Hibit.Cluster
