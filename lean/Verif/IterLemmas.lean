import Verif.Iter
import Verif.Bits.Lemmas
import Verif.IndexLemmas
/-! # Correctness of `Iter` for every lawful tree -/
namespace Hibit

/-- entries below path `q`, `d` levels above the data -/
def under {δ : Type} (W : Nat) (content : List Nat → Option δ) : Nat → List Nat → List (Nat × δ)
  | 0, q => ((content q).map (fun d => (unpath W q, d))).toList
  | d + 1, q => (List.range W).flatMap (fun x => under W content d (q ++ [x]))

theorem range_mul (a b : Nat) :
    List.range (a * b) = (List.range a).flatMap (fun x => (List.range b).map (fun y => x * b + y)) := by
  induction a with
  | zero => simp
  | succ a ih =>
    rw [Nat.succ_mul, List.range_add, List.range_succ, List.flatMap_append, ih]
    simp

theorem flatMap_congr' {α β : Type} {l : List α} {f g : α → List β} (h : ∀ x ∈ l, f x = g x) :
    l.flatMap f = l.flatMap g := by
  induction l with
  | nil => rfl
  | cons a l ih =>
    simp only [List.flatMap_cons]
    rw [h a (by simp), ih (fun x hx => h x (by simp [hx]))]

theorem filterMap_congr' {α β : Type} {l : List α} {f g : α → Option β}
    (h : ∀ x ∈ l, f x = g x) : l.filterMap f = l.filterMap g := by
  induction l with
  | nil => rfl
  | cons a l ih =>
    rw [List.filterMap_cons, List.filterMap_cons, h a (by simp),
      ih (fun x hx => h x (by simp [hx]))]

theorem under_eq {δ : Type} (W : Nat) (content : List Nat → Option δ) : ∀ (d : Nat) (q : List Nat),
    under W content d q = (List.range (W ^ d)).filterMap
      (fun i => (content (q ++ path W d i)).map (fun v => (unpath W q * W ^ d + i, v))) := by
  intro d
  induction d with
  | zero =>
    intro q
    simp only [under, Nat.pow_zero, List.range_one, path, List.append_nil, Nat.mul_one,
      List.filterMap_cons, List.filterMap_nil, Nat.add_zero]
    cases content q <;> rfl
  | succ d ih =>
    intro q
    have hpw : W ^ (d + 1) = W * W ^ d := by rw [Nat.pow_succ, Nat.mul_comm]
    rw [under, hpw, range_mul, List.filterMap_flatMap]
    apply flatMap_congr'
    intro x hx
    rw [ih, List.filterMap_map]
    apply filterMap_congr'
    intro i hi
    have hi' : i < W ^ d := by simpa using hi
    have hp : 0 < W ^ d := by omega
    have e1 : path W (d + 1) (x * W ^ d + i) = x :: path W d i := by
      rw [path, Nat.mul_comm, Nat.mul_add_div hp, Nat.div_eq_of_lt hi', Nat.mul_add_mod,
        Nat.mod_eq_of_lt hi', Nat.add_zero]
    simp only [Function.comp, e1]
    rw [List.append_assoc, List.singleton_append, unpath_append]
    have : unpath W [x] = x := by simp [unpath]
    rw [this, List.length_singleton, Nat.pow_one, Nat.add_mul, Nat.mul_assoc, Nat.add_assoc]

theorem under_root {δ : Type} (W D : Nat) (content : List Nat → Option δ) :
    under W content D [] = entries W D content := by
  rw [under_eq, entries]
  simp

theorem ValidPath.append {W : Nat} {p : List Nat} {i : Nat} (h : ValidPath W p) (hi : i < W) :
    ValidPath W (p ++ [i]) := by
  intro x hx
  simp at hx
  rcases hx with hx | rfl
  · exact h x hx
  · exact hi

theorem ValidPath.of_append {W : Nat} {p : List Nat} {i : Nat} (h : ValidPath W (p ++ [i])) :
    ValidPath W p ∧ i < W :=
  ⟨fun x hx => h x (by simp [hx]), h i (by simp)⟩

theorem ValidPath.take {W : Nat} {p : List Nat} (h : ValidPath W p) (k : Nat) :
    ValidPath W (p.take k) := fun x hx => h x (List.mem_of_mem_take hx)

theorem ValidPath.nil {W : Nat} : ValidPath W [] := fun _ h => by simp at h

theorem SpecWf.under_nil {δ : Type} {W D : Nat} {ex : Bool} {T : TreeSpec δ}
    (h : SpecWf W D ex T) : ∀ (d : Nat) (q : List Nat) (x : Nat), ValidPath W q → x < W →
      q.length + 1 + d = D → T.bits q x = false → under W T.content d (q ++ [x]) = [] := by
  intro d
  induction d with
  | zero =>
    intro q x hq hx hl hb
    have := h.terminal q x hq (by omega) hx
    rw [hb] at this
    have : T.content (q ++ [x]) = none := by simpa using this.symm
    simp [under, this]
  | succ d ih =>
    intro q x hq hx hl hb
    simp only [under, List.flatMap_eq_nil_iff, List.mem_range]
    intro y hy
    apply ih _ _ (hq.append hx) hy (by simp; omega)
    cases hc : T.bits (q ++ [x]) y with
    | false => rfl
    | true => rw [h.upward q x y hq hx (by omega) hc] at hb; cases hb

theorem flatMap_filter' {α β : Type} (l : List α) (p : α → Bool) (f : α → List β)
    (h : ∀ x ∈ l, p x = false → f x = []) : l.flatMap f = (l.filter p).flatMap f := by
  induction l with
  | nil => rfl
  | cons a l ih =>
    have ih := ih (fun x hx => h x (by simp [hx]))
    cases hp : p a with
    | true => simp [hp, ih]
    | false => simp [hp, ih, h a (by simp) hp]

theorem SpecWf.under_bits {δ : Type} {W D : Nat} {ex : Bool} {T : TreeSpec δ}
    (h : SpecWf W D ex T) (d : Nat) (q : List Nat) (hq : ValidPath W q)
    (hl : q.length + 1 + d = D) :
    under W T.content (d + 1) q =
      ((List.range W).filter (fun x => T.bits q x)).flatMap
        (fun x => under W T.content d (q ++ [x])) := by
  rw [under]
  apply flatMap_filter'
  intro x hx hb
  exact h.under_nil d q x hq (by simpa using hx) hl hb

/-- remaining bits of the level-`j` iterator -/
def remAt (l : List BitsIter) (j : Nat) : List Nat := ((l[j]?).map BitsIter.rem).getD []

theorem remAt_set_self {l : List BitsIter} {j : Nat} (h : j < l.length) (it : BitsIter) :
    remAt (l.set j it) j = it.rem := by
  simp [remAt, h]

theorem remAt_set_ne {l : List BitsIter} {j k : Nat} (h : j ≠ k) (it : BitsIter) :
    remAt (l.set j it) k = remAt l k := by
  simp [remAt, List.getElem?_set_ne h]

section
variable {S Cur δ : Type} {I : Impl S Cur δ} {s : S} {T : TreeSpec δ} {K : CursorRel Cur}

/-- weight of one remaining bit `k` levels above the terminal level -/
def wt (W : Nat) : Nat → Nat
  | 0 => 1
  | k + 1 => 1 + W * wt W k

/-- termination measure: weight of the remaining bits of levels `< n` -/
def mu (W D : Nat) (l : List BitsIter) : Nat → Nat
  | 0 => 0
  | n + 1 => (remAt l n).length * wt W (D - n - 1) + mu W D l n

/-- remaining entries of levels `< n` -/
def remBelow (W D : Nat) (content : List Nat → Option δ) (l : List BitsIter) (p : List Nat) :
    Nat → List (Nat × δ)
  | 0 => []
  | n + 1 => (remAt l n).flatMap (fun x => under W content (D - n - 1) (p.take n ++ [x])) ++
      remBelow W D content l p n

/-- Invariant of the iterator. -/
structure ItInv (I : Impl S Cur δ) (T : TreeSpec δ) (K : CursorRel Cur)
    (st : IterSt Cur) (p : List Nat) : Prop where
  plen : p.length + 1 ≤ I.D
  pval : ValidPath (width I.N) p
  ppos : K.pos st.cur p
  lidxlen : st.lidx.length = I.D - 1
  lidx : st.lidx.take p.length = p
  len : st.iters.length = I.D
  wf : ∀ (j : Nat) (it : BitsIter), st.iters[j]? = some it → it.Wf I.N
  above : ∀ (j : Nat), p.length < j → remAt st.iters j = []
  bits : ∀ (j : Nat), j ≤ p.length → ∀ x ∈ remAt st.iters j, T.bits (p.take j) x = true

theorem mu_congr {W D : Nat} {l l' : List BitsIter} : ∀ (n : Nat),
    (∀ j < n, remAt l j = remAt l' j) → mu W D l n = mu W D l' n := by
  intro n
  induction n with
  | zero => intro _; rfl
  | succ n ih =>
    intro h
    simp only [mu]
    rw [h n (by omega), ih (fun j hj => h j (by omega))]

theorem remBelow_congr {W D : Nat} {content : List Nat → Option δ} {l l' : List BitsIter}
    {p p' : List Nat} : ∀ (n : Nat),
    (∀ j < n, remAt l j = remAt l' j ∧ (remAt l j ≠ [] → p.take j = p'.take j)) →
    remBelow W D content l p n = remBelow W D content l' p' n := by
  intro n
  induction n with
  | zero => intro _; rfl
  | succ n ih =>
    intro h
    simp only [remBelow]
    obtain ⟨h1, h2⟩ := h n (by omega)
    rw [← h1, ih (fun j hj => h j (by omega))]
    congr 1
    by_cases he : remAt l n = []
    · simp [he]
    · rw [h2 he]

/-- pop one element at level `n` (all levels above `n` empty) -/
theorem mu_split {W D : Nat} {l : List BitsIter} {n : Nat} (hn : n < D)
    (ha : ∀ j, n < j → remAt l j = []) :
    ∀ k, n < k → mu W D l k = (remAt l n).length * wt W (D - n - 1) + mu W D l n := by
  intro k
  induction k with
  | zero => intro h; omega
  | succ k ih =>
    intro h
    by_cases he : k = n
    · subst he; rfl
    · rw [mu, ha k (by omega), ih (by omega)]; simp

theorem remBelow_split {W D : Nat} {content : List Nat → Option δ} {l : List BitsIter}
    {p : List Nat} {n : Nat} (ha : ∀ j, n < j → remAt l j = []) :
    ∀ k, n < k → remBelow W D content l p k =
      (remAt l n).flatMap (fun x => under W content (D - n - 1) (p.take n ++ [x])) ++
        remBelow W D content l p n := by
  intro k
  induction k with
  | zero => intro h; omega
  | succ k ih =>
    intro h
    by_cases he : k = n
    · subst he; rfl
    · rw [remBelow, ha k (by omega), ih (by omega)]; simp

theorem remAt_of_some {l : List BitsIter} {j : Nat} {it : BitsIter} (h : l[j]? = some it) :
    remAt l j = it.rem := by simp [remAt, h]

theorem getElem?_set_wf {N : Nat} {l : List BitsIter} {k : Nat} {it : BitsIter}
    (h : ∀ (j : Nat) (x : BitsIter), l[j]? = some x → x.Wf N) (hit : it.Wf N) :
    ∀ (j : Nat) (x : BitsIter), (l.set k it)[j]? = some x → x.Wf N := by
  intro j x hx
  rw [List.getElem?_set] at hx
  split at hx
  · split at hx
    · cases hx; exact hit
    · cases hx
  · exact h j x hx

/-- Replacing iterators by ones with the same remaining bits keeps the invariant. -/
theorem ItInv.replace {st : IterSt Cur} {p : List Nat} (h : ItInv I T K st p)
    {iters : List BitsIter} (hl : iters.length = st.iters.length)
    (hw : ∀ (j : Nat) (it : BitsIter), iters[j]? = some it → it.Wf I.N)
    (hr : ∀ j, ∃ t, remAt st.iters j = t ++ remAt iters j) :
    ItInv I T K { st with iters := iters } p where
  plen := h.plen
  pval := h.pval
  ppos := h.ppos
  lidxlen := h.lidxlen
  lidx := h.lidx
  len := by rw [← h.len]; exact hl
  wf := hw
  above := by
    intro j hj
    obtain ⟨t, ht⟩ := hr j
    rw [h.above j hj] at ht
    exact (List.append_eq_nil_iff.1 ht.symm).2
  bits := by
    intro j hj x hx
    obtain ⟨t, ht⟩ := hr j
    apply h.bits j hj x
    rw [ht]; exact List.mem_append_right _ hx

/-- The upward search: from level `n - 1` down to level 0. -/
theorem visit_spec (L : Lawful I s T K) : ∀ (n : Nat) (st : IterSt Cur) (p : List Nat),
    ItInv I T K st p → n + 1 ≤ I.D → (∀ j, n ≤ j → remAt st.iters j = []) →
    (∃ st', visitList (I.iterVisit s) (List.range n).reverse st = .ok (st', false) ∧
        ItInv I T K st' p ∧ (∀ j, remAt st'.iters j = []) ∧ (∀ j, remAt st.iters j = [])) ∨
    (∃ st' p', visitList (I.iterVisit s) (List.range n).reverse st = .ok (st', true) ∧
        ItInv I T K st' p' ∧
        remBelow (width I.N) I.D T.content st'.iters p' I.D =
          remBelow (width I.N) I.D T.content st.iters p I.D ∧
        mu (width I.N) I.D st'.iters I.D < mu (width I.N) I.D st.iters I.D) := by
  intro n
  induction n with
  | zero =>
    intro st p h hn ha
    left
    exact ⟨st, rfl, h, fun j => ha j (Nat.zero_le j), fun j => ha j (Nat.zero_le j)⟩
  | succ n ih =>
    intro st p h hn ha
    have hlt : n < st.iters.length := by rw [h.len]; omega
    have hget : st.iters[n]? = some st.iters[n] := List.getElem?_eq_getElem hlt
    have hwf := h.wf n _ hget
    obtain ⟨it', hnext, hwf', hrem'⟩ := next_spec hwf
    have hrn : remAt st.iters n = st.iters[n].rem := remAt_of_some hget
    rw [List.range_succ, List.reverse_append]
    simp only [List.reverse_cons, List.reverse_nil, List.nil_append, List.singleton_append,
      visitList, Impl.iterVisit, getU_some hget, bind_ok, hnext, setU_ok it' hlt]
    cases hr : st.iters[n].rem with
    | nil =>
      simp only [List.head?_nil, bind_ok, pure_eq_ok, Bool.false_eq_true, if_false]
      rw [hr] at hrem'
      have hsame : ∀ j, remAt (st.iters.set n it') j = remAt st.iters j := by
        intro j
        by_cases hj : n = j
        · subst hj; rw [remAt_set_self hlt, hrem', hrn, hr]; rfl
        · exact remAt_set_ne hj _
      have hinv : ItInv I T K { st with iters := st.iters.set n it' } p :=
        h.replace (by simp) (getElem?_set_wf h.wf hwf') (fun j => ⟨[], by rw [hsame]; rfl⟩)
      rcases ih _ p hinv (by omega) (by
        intro j hj
        show remAt (st.iters.set n it') j = []
        rw [hsame]
        by_cases hj' : j = n
        · subst hj'; rw [hrn, hr]
        · exact ha j (by omega)) with ⟨st', e, i1, i2, i3⟩ | ⟨st', p', e, i1, i2, i3⟩
      · left
        exact ⟨st', e, i1, i2, fun j => by rw [← hsame]; exact i3 j⟩
      · right
        refine ⟨st', p', e, i1, ?_, ?_⟩
        · rw [i2]
          exact remBelow_congr _ (fun j _ => ⟨hsame j, fun _ => rfl⟩)
        · have : mu (width I.N) I.D (st.iters.set n it') I.D = mu (width I.N) I.D st.iters I.D :=
            mu_congr _ (fun j _ => hsame j)
          rw [← this]; exact i3
    | cons x rest =>
      right
      rw [hr] at hrem' hrn
      simp only [List.tail_cons] at hrem'
      -- level n is on the current path
      have hnp : n ≤ p.length := by
        apply Classical.byContradiction
        intro hc
        have := h.above n (by omega)
        rw [hrn] at this; cases this
      have hpl : (p.take n).length = n := by simp; omega
      have hbit : T.bits (p.take n) x = true := h.bits n hnp x (by rw [hrn]; simp)
      have hx : x < width I.N := L.wf.bits_lt _ _ hbit
      have hpos : K.pos st.cur (p.take n) := L.pos_take _ _ _ h.ppos
      obtain ⟨m, c', hsel, hml, hmb, hpos'⟩ := L.selectU_node st.cur (p.take n) x hpos
        (h.pval.take n) hx (by rw [hpl]; omega) hbit
      rw [hpl] at hsel
      have hlidx : n < st.lidx.length := by rw [h.lidxlen]; omega
      have hN : 0 < I.N := by rcases L.cfg.words with e | e | e <;> omega
      have hlt2 : n + 1 < (st.iters.set n it').length := by simp [h.len]; omega
      have hqlen : (p.take n ++ [x]).length = n + 1 := by simp [hpl]
      have hones : m.ones = (List.range (width I.N)).filter (fun j => T.bits (p.take n ++ [x]) j) := by
        unfold Mask.ones
        rw [hml]
        show (List.range (width I.N)).filter _ = _
        apply List.filter_congr
        intro j _; exact hmb j
      simp only [List.head?_cons, setU_ok x hlidx, bind_ok, hsel, setU_ok _ hlt2, pure_eq_ok,
        if_true]
      refine ⟨_, p.take n ++ [x], rfl, ?_, ?_, ?_⟩
      · -- invariant
        refine ⟨by rw [hqlen]; omega, (h.pval.take n).append hx, hpos', by simp [h.lidxlen], ?_,
          by simp [h.len], ?_, ?_, ?_⟩
        · rw [hqlen]
          simp only
          have hh : st.lidx.take n = p.take n := by
            have := congrArg (List.take n) h.lidx
            rwa [List.take_take, Nat.min_eq_left hnp] at this
          rw [List.take_add_one, List.take_set_of_le (Nat.le_refl n), hh]
          simp [hlidx]
        · exact getElem?_set_wf (getElem?_set_wf h.wf hwf') (by
            rw [← hml]; exact intoBitsIter_wf (by omega))
        · intro j hj
          rw [hqlen] at hj
          show remAt ((st.iters.set n it').set (n + 1) _) j = []
          rw [remAt_set_ne (by omega), remAt_set_ne (by omega)]
          exact ha j (by omega)
        · intro j hj y hy
          rw [hqlen] at hj
          change y ∈ remAt ((st.iters.set n it').set (n + 1) _) j at hy
          by_cases h1 : j = n + 1
          · subst h1
            rw [remAt_set_self hlt2, intoBitsIter_rem (by omega), hones] at hy
            rw [List.take_of_length_le (by omega)]
            simpa using (List.mem_filter.1 hy).2
          · rw [remAt_set_ne (fun e => h1 e.symm)] at hy
            have htk : (p.take n ++ [x]).take j = p.take j := by
              rw [List.take_append_of_le_length (by omega), List.take_take,
                Nat.min_eq_left (by omega)]
            rw [htk]
            by_cases h2 : j = n
            · subst h2
              rw [remAt_set_self hlt, hrem'] at hy
              exact h.bits j hnp y (by rw [hrn]; simp [hy])
            · rw [remAt_set_ne (fun e => h2 e.symm)] at hy
              exact h.bits j (by omega) y hy
      · -- remaining entries
        have ha1 : ∀ j, n < j → remAt st.iters j = [] := fun j hj => ha j (by omega)
        have ha2 : ∀ j, n + 1 < j →
            remAt ((st.iters.set n it').set (n + 1) (intoBitsIter m)) j = [] := by
          intro j hj
          rw [remAt_set_ne (by omega), remAt_set_ne (by omega)]
          exact ha j (by omega)
        rw [remBelow_split ha1 I.D (by omega), remBelow_split ha2 I.D (by omega)]
        rw [remAt_set_self hlt2, intoBitsIter_rem (by omega), hones, hrn]
        rw [List.take_of_length_le (by omega)]
        have hu := L.wf.under_bits (I.D - (n + 1) - 1) (p.take n ++ [x])
          ((h.pval.take n).append hx) (by rw [hqlen]; omega)
        have e1 : I.D - (n + 1) - 1 + 1 = I.D - n - 1 := by omega
        rw [e1] at hu
        rw [← hu, remBelow, remAt_set_ne (by omega), remAt_set_self hlt, hrem']
        have htk : (p.take n ++ [x]).take n = p.take n := by
          rw [List.take_append_of_le_length (by omega), List.take_of_length_le (by omega)]
        rw [htk, List.flatMap_cons, List.append_assoc]
        congr 1
        congr 1
        apply remBelow_congr
        intro j hj
        rw [remAt_set_ne (by omega), remAt_set_ne (by omega)]
        refine ⟨rfl, fun _ => ?_⟩
        rw [List.take_append_of_le_length (by omega), List.take_take, Nat.min_eq_left (by omega)]
      · -- measure
        have ha1 : ∀ j, n < j → remAt st.iters j = [] := fun j hj => ha j (by omega)
        have ha2 : ∀ j, n + 1 < j →
            remAt ((st.iters.set n it').set (n + 1) (intoBitsIter m)) j = [] := by
          intro j hj
          rw [remAt_set_ne (by omega), remAt_set_ne (by omega)]
          exact ha j (by omega)
        rw [mu_split (by omega) ha1 I.D (by omega), mu_split (by omega) ha2 I.D (by omega)]
        rw [remAt_set_self hlt2, intoBitsIter_rem (by omega), hones, hrn, mu,
          remAt_set_ne (by omega), remAt_set_self hlt, hrem']
        have hcg : mu (width I.N) I.D ((st.iters.set n it').set (n + 1) (intoBitsIter m)) n =
            mu (width I.N) I.D st.iters n := by
          apply mu_congr
          intro j hj
          rw [remAt_set_ne (by omega), remAt_set_ne (by omega)]
        rw [hcg]
        have hfl : ((List.range (width I.N)).filter
            (fun j => T.bits (p.take n ++ [x]) j)).length ≤ width I.N := by
          have := List.length_filter_le (fun j => T.bits (p.take n ++ [x]) j)
            (List.range (width I.N))
          simpa using this
        have e2 : I.D - n - 1 = (I.D - (n + 1) - 1) + 1 := by omega
        have hw : wt (width I.N) (I.D - n - 1) =
            1 + width I.N * wt (width I.N) (I.D - (n + 1) - 1) := by rw [e2, wt]
        have hmul := Nat.mul_le_mul_right (wt (width I.N) (I.D - (n + 1) - 1)) hfl
        simp only [List.length_cons]
        rw [Nat.succ_mul]
        omega

/-- One round-trip of the search loop. -/
theorem loop_spec (L : Lawful I s T K) : ∀ (fuel : Nat) (st : IterSt Cur) (p : List Nat),
    ItInv I T K st p → mu (width I.N) I.D st.iters I.D < fuel →
    (∃ st' p', I.iterLoop s fuel st = .ok (none, st') ∧ ItInv I T K st' p' ∧
      remBelow (width I.N) I.D T.content st.iters p I.D = [] ∧
      remBelow (width I.N) I.D T.content st'.iters p' I.D = [] ∧
      mu (width I.N) I.D st'.iters I.D ≤ mu (width I.N) I.D st.iters I.D) ∨
    (∃ st' p' x d, I.iterLoop s fuel st = .ok (some x, st') ∧ ItInv I T K st' p' ∧
      p'.length + 1 = I.D ∧ x < width I.N ∧ T.content (p' ++ [x]) = some d ∧
      remBelow (width I.N) I.D T.content st.iters p I.D =
        (unpath (width I.N) (p' ++ [x]), d) ::
          remBelow (width I.N) I.D T.content st'.iters p' I.D ∧
      mu (width I.N) I.D st'.iters I.D ≤ mu (width I.N) I.D st.iters I.D) := by
  intro fuel
  induction fuel with
  | zero => intro st p _ h; omega
  | succ fuel ih =>
    intro st p h hf
    have hD : 0 < I.D := L.cfg.depth
    have hlt : I.D - 1 < st.iters.length := by rw [h.len]; omega
    have hget : st.iters[I.D - 1]? = some st.iters[I.D - 1] := List.getElem?_eq_getElem hlt
    have hwf := h.wf _ _ hget
    obtain ⟨it', hnext, hwf', hrem'⟩ := next_spec hwf
    have hrn : remAt st.iters (I.D - 1) = st.iters[I.D - 1].rem := remAt_of_some hget
    have ha1 : ∀ j, I.D - 1 < j → remAt st.iters j = [] := by
      intro j hj
      have : st.iters.length ≤ j := by rw [h.len]; omega
      simp [remAt, List.getElem?_eq_none this]
    unfold Impl.iterLoop
    simp only [h.len, getP_some hget, bind_ok, hnext]
    cases hr : st.iters[I.D - 1].rem with
    | cons x rest =>
      right
      rw [hr] at hrem' hrn
      simp only [List.tail_cons] at hrem'
      have hnp : p.length = I.D - 1 := by
        have h1 := h.plen
        apply Classical.byContradiction
        intro hc
        have := h.above (I.D - 1) (by omega)
        rw [hrn] at this; cases this
      have hbit : T.bits p x = true := by
        have := h.bits (I.D - 1) (by omega) x (by rw [hrn]; simp)
        rwa [List.take_of_length_le (by omega)] at this
      have hx : x < width I.N := L.wf.bits_lt _ _ hbit
      have hterm := L.wf.terminal p x h.pval (by omega) hx
      rw [hbit] at hterm
      obtain ⟨d, hd⟩ := Option.isSome_iff_exists.1 hterm.symm
      have hsfx : ∀ j, ∃ t, remAt st.iters j = t ++ remAt (st.iters.set (I.D - 1) it') j := by
        intro j
        by_cases hj : I.D - 1 = j
        · subst hj; exact ⟨[x], by rw [remAt_set_self hlt, hrem', hrn]; rfl⟩
        · exact ⟨[], by rw [remAt_set_ne hj]; rfl⟩
      have ha2 : ∀ j, I.D - 1 < j → remAt (st.iters.set (I.D - 1) it') j = [] := by
        intro j hj
        rw [remAt_set_ne (by omega)]; exact ha1 j hj
      refine ⟨_, p, x, d, rfl, h.replace (by simp) (getElem?_set_wf h.wf hwf') hsfx,
        by omega, hx, hd, ?_, ?_⟩
      · rw [remBelow_split ha1 I.D (by omega), remBelow_split ha2 I.D (by omega), hrn,
          remAt_set_self hlt, hrem']
        have e0 : I.D - (I.D - 1) - 1 = 0 := by omega
        rw [e0, List.flatMap_cons, List.take_of_length_le (by omega), List.append_assoc]
        simp only [under, hd, Option.map_some, Option.toList_some, List.singleton_append]
        congr 2
        apply remBelow_congr
        intro j hj
        rw [remAt_set_ne (by omega)]
        exact ⟨rfl, fun _ => rfl⟩
      · rw [mu_split (by omega) ha1 I.D (by omega), mu_split (by omega) ha2 I.D (by omega), hrn,
          remAt_set_self hlt, hrem']
        have hcg : mu (width I.N) I.D (st.iters.set (I.D - 1) it') (I.D - 1) =
            mu (width I.N) I.D st.iters (I.D - 1) :=
          mu_congr _ (fun j hj => remAt_set_ne (by omega) _)
        rw [hcg]
        have := Nat.mul_le_mul_right (wt (width I.N) (I.D - (I.D - 1) - 1))
          (show rest.length ≤ (x :: rest).length by simp)
        omega
    | nil =>
      rw [hr] at hrem'
      have hsame : ∀ j, remAt (st.iters.set (I.D - 1) it') j = remAt st.iters j := by
        intro j
        by_cases hj : I.D - 1 = j
        · subst hj; rw [remAt_set_self hlt, hrem', hrn, hr]; rfl
        · exact remAt_set_ne hj _
      have hinv : ItInv I T K { st with iters := st.iters.set (I.D - 1) it' } p :=
        h.replace (by simp) (getElem?_set_wf h.wf hwf') (fun j => ⟨[], by rw [hsame]; rfl⟩)
      have hmu : mu (width I.N) I.D (st.iters.set (I.D - 1) it') I.D =
          mu (width I.N) I.D st.iters I.D := mu_congr _ (fun j _ => hsame j)
      have hrb : remBelow (width I.N) I.D T.content (st.iters.set (I.D - 1) it') p I.D =
          remBelow (width I.N) I.D T.content st.iters p I.D :=
        remBelow_congr _ (fun j _ => ⟨hsame j, fun _ => rfl⟩)
      simp only [List.head?_nil, constForRev, iterateAsRangeRev_zero]
      have hnil : ∀ (l : List BitsIter) (q : List Nat), (∀ j, remAt l j = []) → ∀ n,
          remBelow (width I.N) I.D T.content l q n = [] := by
        intro l q hl n
        induction n with
        | zero => rfl
        | succ n ihn => rw [remBelow, hl n, ihn]; rfl
      have hnil' : ∀ (l : List BitsIter), (∀ j, remAt l j = []) → ∀ n,
          mu (width I.N) I.D l n = 0 := by
        intro l hl n
        induction n with
        | zero => rfl
        | succ n ihn => rw [mu, hl n, ihn]; simp
      rcases visit_spec L (I.D - 1) _ p hinv (by omega) (by
        intro j hj
        show remAt (st.iters.set (I.D - 1) it') j = []
        rw [hsame]
        by_cases hj' : j = I.D - 1
        · subst hj'; rw [hrn, hr]
        · exact ha1 j (by omega)) with ⟨st', e, i1, i2, i3⟩ | ⟨st', p', e, i1, i2, i3⟩
      · left
        rw [e]
        refine ⟨st', p, rfl, i1, ?_, hnil _ _ i2 _, ?_⟩
        · rw [← hrb]; exact hnil _ _ i3 _
        · rw [hnil' _ i2]; omega
      · rw [e]
        simp only [bind_ok, if_true]
        change remBelow _ _ _ _ _ _ = remBelow _ _ _ (st.iters.set (I.D - 1) it') _ _ at i2
        change mu _ _ _ _ < mu _ _ (st.iters.set (I.D - 1) it') _ at i3
        rw [hrb] at i2
        rw [hmu] at i3
        rcases ih st' p' i1 (by omega) with
          ⟨st2, p2, e2, j1, j2, j3, j4⟩ | ⟨st2, p2, x, d, e2, j1, j2, j3, j4, j5, j6⟩
        · left
          exact ⟨st2, p2, e2, j1, by rw [← i2]; exact j2, j3, by omega⟩
        · right
          exact ⟨st2, p2, x, d, e2, j1, j2, j3, j4, by rw [← i2]; exact j5, by omega⟩

/-- One `next` call pops the head of the remaining entries. -/
theorem iterNext_spec (L : Lawful I s T K) (fuel : Nat) (st : IterSt Cur) (p : List Nat)
    (h : ItInv I T K st p) (hf : mu (width I.N) I.D st.iters I.D < fuel) :
    ∃ st' p', I.iterNext s fuel st =
        .ok ((remBelow (width I.N) I.D T.content st.iters p I.D).head?, st') ∧
      ItInv I T K st' p' ∧
      remBelow (width I.N) I.D T.content st'.iters p' I.D =
        (remBelow (width I.N) I.D T.content st.iters p I.D).tail ∧
      mu (width I.N) I.D st'.iters I.D < fuel := by
  rcases loop_spec L fuel st p h hf with
    ⟨st', p', e, j1, j2, j3, j4⟩ | ⟨st', p', x, d, e, j1, j2, j3, j4, j5, j6⟩
  · refine ⟨st', p', ?_, j1, ?_, by omega⟩
    · simp [Impl.iterNext, e, j2]
    · rw [j2, j3]; rfl
  · refine ⟨st', p', ?_, j1, ?_, by omega⟩
    · have hdat := L.curDataU_eq st'.cur p' x d j1.ppos j1.pval j3 j2 j4
      have hidx := dataBlockIndex_eq L.cfg j2 j1.pval j3 j1.lidx
      simp only [Impl.iterNext, e, bind_ok, hdat, hidx, pure_eq_ok]
      rw [j5]; rfl
    · rw [j5]; rfl

theorem iterTake_spec (L : Lawful I s T K) (fuel : Nat) : ∀ (n : Nat) (st : IterSt Cur)
    (p : List Nat), ItInv I T K st p → mu (width I.N) I.D st.iters I.D < fuel →
    I.iterTake s fuel n st = .ok ((List.range n).map
      (fun k => (remBelow (width I.N) I.D T.content st.iters p I.D)[k]?)) := by
  intro n
  induction n with
  | zero => intro st p _ _; rfl
  | succ n ih =>
    intro st p h hf
    obtain ⟨st', p', e, h', hr, hf'⟩ := iterNext_spec L fuel st p h hf
    simp only [Impl.iterTake, e, bind_ok, ih st' p' h' hf', pure_eq_ok]
    rw [List.range_succ_eq_map, List.map_cons, List.map_map, hr]
    congr 2
    · cases remBelow (width I.N) I.D T.content st.iters p I.D <;> rfl
    · apply List.map_congr_left
      intro k _
      simp only [Function.comp]
      cases remBelow (width I.N) I.D T.content st.iters p I.D <;> simp

/-- `Iter::new` establishes the invariant with all entries remaining. -/
theorem iterNew_spec (L : Lawful I s T K) :
    ∃ st, I.iterNew s = .ok st ∧ ItInv I T K st [] ∧
      remBelow (width I.N) I.D T.content st.iters [] I.D = entries (width I.N) I.D T.content := by
  have hD : 0 < I.D := L.cfg.depth
  have hN : 0 < I.N := by rcases L.cfg.words with e | e | e <;> omega
  have hW : 0 < width I.N := by have := width_pos L.cfg.words; omega
  obtain ⟨c, hc, hci⟩ := L.new_ok
  obtain ⟨m, c', hsel, hml, hmb, hpos⟩ := L.selectU_root c 0 hci rfl
  have hlt : 0 < (List.replicate I.D (BitsIter.empty I.N)).length := by simpa using hD
  have hones : m.ones = (List.range (width I.N)).filter (fun j => T.bits [] j) := by
    unfold Mask.ones
    rw [hml]
    show (List.range (width I.N)).filter _ = _
    apply List.filter_congr
    intro j _; exact hmb j
  have habove : ∀ j, 0 < j →
      remAt ((List.replicate I.D (BitsIter.empty I.N)).set 0 (intoBitsIter m)) j = [] := by
    intro j hj
    rw [remAt_set_ne (by omega)]
    simp only [remAt, List.getElem?_replicate]
    split
    · simp [empty_rem hN]
    · rfl
  refine ⟨⟨(List.replicate I.D (BitsIter.empty I.N)).set 0 (intoBitsIter m),
    List.replicate (I.D - 1) (usizeMod - 1), c'⟩, ?_, ?_, ?_⟩
  · simp only [Impl.iterNew, hc, bind_ok, hsel]
    rw [if_neg (by omega)]
    rfl
  · refine ⟨by simp; omega, ValidPath.nil, hpos, by simp, by simp, by simp, ?_, ?_, ?_⟩
    · apply getElem?_set_wf
      · intro j it hj
        rw [List.getElem?_replicate] at hj
        split at hj
        · cases hj; exact empty_wf hN
        · cases hj
      · rw [← hml]; exact intoBitsIter_wf (by omega)
    · intro j hj; exact habove j (by simpa using hj)
    · intro j hj x hx
      have : j = 0 := by simpa using hj
      subst this
      rw [remAt_set_self hlt, intoBitsIter_rem (by omega), hones] at hx
      simpa using (List.mem_filter.1 hx).2
  · rw [remBelow_split habove I.D hD, remAt_set_self hlt, intoBitsIter_rem (by omega), hones]
    have hu := L.wf.under_bits (I.D - 1) [] ValidPath.nil (by simp; omega)
    have e1 : I.D - 1 + 1 = I.D := by omega
    rw [e1, under_root] at hu
    rw [hu]
    simp [remBelow]

/-- **Iteration theorem**: with enough loop fuel, the results of any number of `next` calls are
the entries in ascending index order followed by `None`s. -/
theorem iterRun_spec (L : Lawful I s T K) :
    ∃ F, ∀ fuel, F ≤ fuel → ∀ n, I.iterRun s fuel n =
      .ok ((List.range n).map (fun k => (entries (width I.N) I.D T.content)[k]?)) := by
  obtain ⟨st, e, h, hr⟩ := iterNew_spec L
  refine ⟨mu (width I.N) I.D st.iters I.D + 1, ?_⟩
  intro fuel hf n
  simp only [Impl.iterRun, e, bind_ok]
  rw [iterTake_spec L fuel n st [] h (by omega), hr]

end

end Hibit
