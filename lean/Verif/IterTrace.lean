import Verif.IterLemmas
import Verif.TreeOf
/-!
# Which nodes an iteration selects

The iterator of `iter.rs`, run over a tree whose cursor records every `select_level_node(_unchecked)`
call.
-/
namespace Hibit

/-- The same tree with a cursor that records its select calls as `(level, index)`, in order. -/
def traced {S Cur δ : Type} (I : Impl S Cur δ) : Impl S (Cur × List (Nat × Nat)) δ where
  N := I.N
  D := I.D
  exact := I.exact
  data := I.data
  dataU := I.dataU
  new s := do
    let c ← I.new s
    return (c, [])
  select c s level index := do
    let (m, c') ← I.select c.1 s level index
    return (m, (c', c.2 ++ [(level, index)]))
  selectU c s level index := do
    let (m, c') ← I.selectU c.1 s level index
    return (m, (c', c.2 ++ [(level, index)]))
  curData c s i := I.curData c.1 s i
  curDataU c s i := I.curDataU c.1 s i

/-- Successive calls of `next` (iter.rs:85-147) on a recording cursor: for each call its result and
the select calls it made. -/
def Impl.iterCalls {S Cur δ : Type} (I : Impl S Cur δ) (s : S) (fuel : Nat) :
    Nat → IterSt (Cur × List (Nat × Nat)) → R (List (Option (Nat × δ) × List (Nat × Nat)))
  | 0, _ => .ok []
  | n + 1, st => do
    let (o, st) ← (traced I).iterNext s fuel { st with cur := (st.cur.1, []) }
    let rest ← I.iterCalls s fuel n st
    return (o, st.cur.2) :: rest

/-- `iter()` and `n` calls of `next()`: the select calls made by `iter()`, and for each `next` its
result and the select calls it made. -/
def Impl.iterTrace {S Cur δ : Type} (I : Impl S Cur δ) (s : S) (fuel n : Nat) :
    R (List (Nat × Nat) × List (Option (Nat × δ) × List (Nat × Nat))) := do
  let st ← (traced I).iterNew s
  let rest ← I.iterCalls s fuel n st
  return (st.cur.2, rest)

/-- The cursor relation of a recording cursor: that of the cursor. -/
def tracedRel {Cur : Type} (K : CursorRel Cur) : CursorRel (Cur × List (Nat × Nat)) where
  inv c := K.inv c.1
  pos c p := K.pos c.1 p
  posC c p := K.posC c.1 p

section
variable {S Cur δ : Type} {I : Impl S Cur δ} {s : S} {T : TreeSpec δ} {K : CursorRel Cur}

theorem traced_lawful (L : Lawful I s T K) : Lawful (traced I) s T (tracedRel K) where
  cfg := L.cfg
  wf := L.wf
  data_eq := L.data_eq
  dataU_eq := L.dataU_eq
  new_ok := by
    obtain ⟨c, e, h⟩ := L.new_ok
    exact ⟨(c, []), by simp [traced, e], h⟩
  pos_inv c p := L.pos_inv c.1 p
  posC_pos c p := L.posC_pos c.1 p
  pos_take c p k := L.pos_take c.1 p k
  select_root c i h hi := by
    obtain ⟨m, c', e, h1, h2, h3⟩ := L.select_root c.1 i h hi
    exact ⟨m, (c', c.2 ++ [(0, i)]), by simp [traced, e], h1, h2, h3⟩
  selectU_root c i h hi := by
    obtain ⟨m, c', e, h1, h2, h3⟩ := L.selectU_root c.1 i h hi
    exact ⟨m, (c', c.2 ++ [(0, i)]), by simp [traced, e], h1, h2, h3⟩
  select_node c p i h hp hi hl := by
    obtain ⟨m, c', e, h1, h2, h3⟩ := L.select_node c.1 p i h hp hi hl
    exact ⟨m, (c', c.2 ++ [(p.length + 1, i)]), by simp [traced, e], h1, h2, h3⟩
  selectU_node c p i h hp hi hl hb := by
    obtain ⟨m, c', e, h1, h2, h3⟩ := L.selectU_node c.1 p i h hp hi hl hb
    exact ⟨m, (c', c.2 ++ [(p.length + 1, i)]), by simp [traced, e], h1, h2, h3⟩
  curDataU_eq c p i d h hp hi hl := L.curDataU_eq c.1 p i d h hp hi hl

/-- More fuel does not change the result of the search loop. -/
theorem iterLoop_mono : ∀ (f f' : Nat) (st : IterSt Cur) r, I.iterLoop s f st = .ok r → f ≤ f' →
    I.iterLoop s f' st = .ok r := by
  intro f
  induction f with
  | zero => intro f' st r h; simp [Impl.iterLoop] at h
  | succ f ih =>
    intro f' st r h hle
    obtain ⟨g, rfl⟩ : ∃ g, f' = g + 1 := ⟨f' - 1, by omega⟩
    unfold Impl.iterLoop at h ⊢
    cases e1 : getP st.iters (st.iters.length - 1) with
    | error e => rw [e1] at h; cases h
    | ok it =>
      rw [e1] at h
      simp only [bind_ok] at h ⊢
      cases e2 : it.next with
      | error e => rw [e2] at h; cases h
      | ok q =>
        obtain ⟨o, it'⟩ := q
        rw [e2] at h
        simp only [bind_ok] at h ⊢
        cases o with
        | some index => exact h
        | none =>
          simp only at h ⊢
          cases e3 : constForRev 0 (I.D - 1) (I.iterVisit s)
              { st with iters := st.iters.set (st.iters.length - 1) it' } with
          | error e => rw [e3] at h; cases h
          | ok q =>
            obtain ⟨st', b⟩ := q
            rw [e3] at h
            simp only [bind_ok] at h ⊢
            cases b with
            | false => exact h
            | true => exact ih g st' r h (by omega)

/-- The bits of the node at `p`, ascending. -/
def onesAt (W : Nat) (T : TreeSpec δ) (p : List Nat) : List Nat :=
  (List.range W).filter (fun j => T.bits p j)

/-- The upward search, in full: it finds the lowest level with a remaining bit, moves there, and
leaves everything else alone. -/
theorem visit_trace (L : Lawful I s T K) : ∀ (n : Nat) (st : IterSt Cur) (p : List Nat),
    ItInv I T K st p → n + 1 ≤ I.D → (∀ j, n ≤ j → remAt st.iters j = []) →
    (∃ st', visitList (I.iterVisit s) (List.range n).reverse st = .ok (st', false) ∧
        ItInv I T K st' p ∧ (∀ j, remAt st'.iters j = []) ∧ (∀ j, remAt st.iters j = []) ∧
        st'.cur = st.cur) ∨
    (∃ st' k x rest m, visitList (I.iterVisit s) (List.range n).reverse st = .ok (st', true) ∧
        k < n ∧ k ≤ p.length ∧ ItInv I T K st' (p.take k ++ [x]) ∧
        T.bits (p.take k) x = true ∧
        remAt st.iters k = x :: rest ∧ (∀ j, k < j → remAt st.iters j = []) ∧
        remAt st'.iters k = rest ∧
        remAt st'.iters (k + 1) = onesAt (width I.N) T (p.take k ++ [x]) ∧
        (∀ j, j < k → remAt st'.iters j = remAt st.iters j) ∧
        (∀ j, k + 1 < j → remAt st'.iters j = []) ∧
        I.selectU st.cur s (k + 1) x = .ok (m, st'.cur)) := by
  intro n
  induction n with
  | zero =>
    intro st p h hn ha
    left
    exact ⟨st, rfl, h, fun j => ha j (Nat.zero_le j), fun j => ha j (Nat.zero_le j), rfl⟩
  | succ n ih =>
    intro st p h hn ha
    have hlt : n < st.iters.length := by rw [h.len]; omega
    have hget : st.iters[n]? = some st.iters[n] := List.getElem?_eq_getElem hlt
    have hwf := h.wf n _ hget
    obtain ⟨it', hnext, hwf', hrem'⟩ := next_spec hwf
    have hrn : remAt st.iters n = st.iters[n].rem := remAt_of_some hget
    rw [List.range_succ, List.reverse_append]
    simp only [List.reverse_cons, List.reverse_nil, List.nil_append, List.singleton_append,
      visitList, Impl.iterVisit, getU_some hget, bind_ok, hnext, setU_ok it' hlt]
    cases hr : st.iters[n].rem with
    | nil =>
      simp only [List.head?_nil, bind_ok, pure_eq_ok, Bool.false_eq_true, if_false]
      rw [hr] at hrem'
      have hsame : ∀ j, remAt (st.iters.set n it') j = remAt st.iters j := by
        intro j
        by_cases hj : n = j
        · subst hj; rw [remAt_set_self hlt, hrem', hrn, hr]; rfl
        · exact remAt_set_ne hj _
      have hinv : ItInv I T K { st with iters := st.iters.set n it' } p :=
        h.replace (by simp) (getElem?_set_wf h.wf hwf') (fun j => ⟨[], by rw [hsame]; rfl⟩)
      rcases ih _ p hinv (by omega) (by
        intro j hj
        show remAt (st.iters.set n it') j = []
        rw [hsame]
        by_cases hj' : j = n
        · subst hj'; rw [hrn, hr]
        · exact ha j (by omega)) with ⟨st', e, i1, i2, i3, i4⟩ |
          ⟨st', k, x, rest, m, e, a1, a2, a3, a4, a5, a6, a7, a8, a9, a10, a11⟩
      · left
        exact ⟨st', e, i1, i2, fun j => by rw [← hsame]; exact i3 j, i4⟩
      · right
        exact ⟨st', k, x, rest, m, e, by omega, a2, a3, a4, by rw [← hsame]; exact a5,
          fun j hj => by rw [← hsame]; exact a6 j hj, a7, a8,
          fun j hj => by rw [← hsame]; exact a9 j hj, a10, a11⟩
    | cons x rest =>
      right
      rw [hr] at hrem' hrn
      simp only [List.tail_cons] at hrem'
      have hnp : n ≤ p.length := by
        apply Classical.byContradiction
        intro hc
        have := h.above n (by omega)
        rw [hrn] at this; cases this
      have hpl : (p.take n).length = n := by simp; omega
      have hbit : T.bits (p.take n) x = true := h.bits n hnp x (by rw [hrn]; simp)
      have hx : x < width I.N := L.wf.bits_lt _ _ hbit
      have hpos : K.pos st.cur (p.take n) := L.pos_take _ _ _ h.ppos
      obtain ⟨m, c', hsel, hml, hmb, hpos'⟩ := L.selectU_node st.cur (p.take n) x hpos
        (h.pval.take n) hx (by rw [hpl]; omega) hbit
      rw [hpl] at hsel
      have hlidx : n < st.lidx.length := by rw [h.lidxlen]; omega
      have hN : 0 < I.N := by rcases L.cfg.words with e | e | e <;> omega
      have hlt2 : n + 1 < (st.iters.set n it').length := by simp [h.len]; omega
      have hqlen : (p.take n ++ [x]).length = n + 1 := by simp [hpl]
      have hones : m.ones = onesAt (width I.N) T (p.take n ++ [x]) := by
        unfold Mask.ones
        rw [hml]
        show (List.range (width I.N)).filter _ = _
        apply List.filter_congr
        intro j _; exact hmb j
      simp only [List.head?_cons, setU_ok x hlidx, bind_ok, hsel, setU_ok _ hlt2, pure_eq_ok,
        if_true]
      refine ⟨_, n, x, rest, m, rfl, by omega, hnp, ?_, hbit, hrn, fun j hj => ha j (by omega), ?_, ?_,
        ?_, ?_, hsel⟩
      · refine ⟨by rw [hqlen]; omega, (h.pval.take n).append hx, hpos', by simp [h.lidxlen], ?_,
          by simp [h.len], ?_, ?_, ?_⟩
        · rw [hqlen]
          simp only
          have hh : st.lidx.take n = p.take n := by
            have := congrArg (List.take n) h.lidx
            rwa [List.take_take, Nat.min_eq_left hnp] at this
          rw [List.take_add_one, List.take_set_of_le (Nat.le_refl n), hh]
          simp [hlidx]
        · exact getElem?_set_wf (getElem?_set_wf h.wf hwf') (by
            rw [← hml]; exact intoBitsIter_wf (by omega))
        · intro j hj
          rw [hqlen] at hj
          show remAt ((st.iters.set n it').set (n + 1) _) j = []
          rw [remAt_set_ne (by omega), remAt_set_ne (by omega)]
          exact ha j (by omega)
        · intro j hj y hy
          rw [hqlen] at hj
          change y ∈ remAt ((st.iters.set n it').set (n + 1) _) j at hy
          by_cases h1 : j = n + 1
          · subst h1
            rw [remAt_set_self hlt2, intoBitsIter_rem (by omega), hones] at hy
            rw [List.take_of_length_le (by omega)]
            simpa using (List.mem_filter.1 hy).2
          · rw [remAt_set_ne (fun e => h1 e.symm)] at hy
            have htk : (p.take n ++ [x]).take j = p.take j := by
              rw [List.take_append_of_le_length (by omega), List.take_take,
                Nat.min_eq_left (by omega)]
            rw [htk]
            by_cases h2 : j = n
            · subst h2
              rw [remAt_set_self hlt, hrem'] at hy
              exact h.bits j hnp y (by rw [hrn]; simp [hy])
            · rw [remAt_set_ne (fun e => h2 e.symm)] at hy
              exact h.bits j (by omega) y hy
      · show remAt ((st.iters.set n it').set (n + 1) _) n = rest
        rw [remAt_set_ne (by omega), remAt_set_self hlt, hrem']
      · show remAt ((st.iters.set n it').set (n + 1) _) (n + 1) = _
        rw [remAt_set_self hlt2, intoBitsIter_rem (by omega), hones]
      · intro j hj
        show remAt ((st.iters.set n it').set (n + 1) _) j = _
        rw [remAt_set_ne (by omega), remAt_set_ne (by omega)]
      · intro j hj
        show remAt ((st.iters.set n it').set (n + 1) _) j = _
        rw [remAt_set_ne (by omega), remAt_set_ne (by omega)]
        exact ha j (by omega)

theorem iterLoop_succ (f : Nat) (st : IterSt Cur) : I.iterLoop s (f + 1) st = (do
    let it ← getP st.iters (st.iters.length - 1)
    let (o, it') ← it.next
    let st := { st with iters := st.iters.set (st.iters.length - 1) it' }
    match o with
    | some index => return (some index, st)
    | none =>
      let (st, brk) ← constForRev 0 (I.D - 1) (I.iterVisit s) st
      if brk then I.iterLoop s f st else return (none, st)) := rfl

/-- One round of the search loop. -/
theorem loop_round (L : Lawful I s T K) (f : Nat) (st : IterSt Cur) (p : List Nat)
    (h : ItInv I T K st p) :
    (∃ st' x rest, I.iterLoop s (f + 1) st = .ok (some x, st') ∧ ItInv I T K st' p ∧
        p.length + 1 = I.D ∧ remAt st.iters (I.D - 1) = x :: rest ∧
        remAt st'.iters (I.D - 1) = rest ∧ (∀ j, j ≠ I.D - 1 → remAt st'.iters j = remAt st.iters j) ∧
        st'.cur = st.cur) ∨
    (∃ st', I.iterLoop s (f + 1) st = .ok (none, st') ∧ ItInv I T K st' p ∧
        (∀ j, remAt st'.iters j = []) ∧ (∀ j, remAt st.iters j = []) ∧ st'.cur = st.cur) ∨
    (∃ st' k x rest m, I.iterLoop s (f + 1) st = I.iterLoop s f st' ∧
        k + 1 < I.D ∧ k ≤ p.length ∧ ItInv I T K st' (p.take k ++ [x]) ∧
        T.bits (p.take k) x = true ∧
        remAt st.iters k = x :: rest ∧ (∀ j, k < j → remAt st.iters j = []) ∧
        remAt st'.iters k = rest ∧
        remAt st'.iters (k + 1) = onesAt (width I.N) T (p.take k ++ [x]) ∧
        (∀ j, j < k → remAt st'.iters j = remAt st.iters j) ∧
        (∀ j, k + 1 < j → remAt st'.iters j = []) ∧
        I.selectU st.cur s (k + 1) x = .ok (m, st'.cur)) := by
  have hD : 0 < I.D := L.cfg.depth
  have hlt : I.D - 1 < st.iters.length := by rw [h.len]; omega
  have hget : st.iters[I.D - 1]? = some st.iters[I.D - 1] := List.getElem?_eq_getElem hlt
  have hwf := h.wf _ _ hget
  obtain ⟨it', hnext, hwf', hrem'⟩ := next_spec hwf
  have hrn : remAt st.iters (I.D - 1) = st.iters[I.D - 1].rem := remAt_of_some hget
  have ha1 : ∀ j, I.D - 1 < j → remAt st.iters j = [] := by
    intro j hj
    have : st.iters.length ≤ j := by rw [h.len]; omega
    simp [remAt, List.getElem?_eq_none this]
  rw [iterLoop_succ]
  simp only [h.len, getP_some hget, bind_ok, hnext]
  cases hr : st.iters[I.D - 1].rem with
  | cons x rest =>
    left
    rw [hr] at hrem' hrn
    simp only [List.tail_cons] at hrem'
    have hnp : p.length = I.D - 1 := by
      have h1 := h.plen
      apply Classical.byContradiction
      intro hc
      have := h.above (I.D - 1) (by omega)
      rw [hrn] at this; cases this
    have hsfx : ∀ j, ∃ t, remAt st.iters j = t ++ remAt (st.iters.set (I.D - 1) it') j := by
      intro j
      by_cases hj : I.D - 1 = j
      · subst hj; exact ⟨[x], by rw [remAt_set_self hlt, hrem', hrn]; rfl⟩
      · exact ⟨[], by rw [remAt_set_ne hj]; rfl⟩
    refine ⟨_, x, rest, rfl, h.replace (by simp) (getElem?_set_wf h.wf hwf') hsfx, by omega, hrn, ?_,
      ?_, rfl⟩
    · rw [remAt_set_self hlt, hrem']
    · intro j hj; exact remAt_set_ne (fun e => hj e.symm) _
  | nil =>
    right
    rw [hr] at hrem'
    have hsame : ∀ j, remAt (st.iters.set (I.D - 1) it') j = remAt st.iters j := by
      intro j
      by_cases hj : I.D - 1 = j
      · subst hj; rw [remAt_set_self hlt, hrem', hrn, hr]; rfl
      · exact remAt_set_ne hj _
    have hinv : ItInv I T K { st with iters := st.iters.set (I.D - 1) it' } p :=
      h.replace (by simp) (getElem?_set_wf h.wf hwf') (fun j => ⟨[], by rw [hsame]; rfl⟩)
    simp only [List.head?_nil, constForRev, iterateAsRangeRev_zero]
    rcases visit_trace L (I.D - 1) _ p hinv (by omega) (by
      intro j hj
      show remAt (st.iters.set (I.D - 1) it') j = []
      rw [hsame]
      by_cases hj' : j = I.D - 1
      · subst hj'; rw [hrn, hr]
      · exact ha1 j (by omega)) with ⟨st', e, i1, i2, i3, i4⟩ |
        ⟨st', k, x, rest, m, e, a1, a2, a3, a4, a5, a6, a7, a8, a9, a10, a11⟩
    · left
      rw [e]
      exact ⟨st', rfl, i1, i2, fun j => by rw [← hsame]; exact i3 j, i4⟩
    · right
      rw [e]
      exact ⟨st', k, x, rest, m, rfl, by omega, a2, a3, a4, by rw [← hsame]; exact a5,
        fun j hj => by rw [← hsame]; exact a6 j hj, a7, a8,
        fun j hj => by rw [← hsame]; exact a9 j hj, a10, a11⟩

/-- The select calls that lead from the node at depth `c` on the path `q` down to the terminal node:
`(level, index)` for the levels `c + 1 .. D - 1`. -/
def callsFrom (D c : Nat) (q : List Nat) : List (Nat × Nat) :=
  (List.range' (c + 1) (D - 1 - c)).map (fun l => (l, q.getD (l - 1) 0))

theorem callsFrom_last (D : Nat) (q : List Nat) : callsFrom D (D - 1) q = [] := by
  simp [callsFrom]

theorem callsFrom_cons {D c : Nat} (q : List Nat) (h : c + 1 < D) :
    callsFrom D c q = (c + 1, q.getD c 0) :: callsFrom D (c + 1) q := by
  have e : D - 1 - c = (D - 1 - (c + 1)) + 1 := by omega
  unfold callsFrom
  rw [e, List.range'_succ]
  rfl

theorem rem_pairwise (it : BitsIter) : it.rem.Pairwise (· < ·) := by
  cases it with
  | prim w => exact List.Pairwise.filter _ List.pairwise_lt_range
  | arr q =>
    simp only [BitsIter.rem]
    have h := onesFrom_shift ((q.iters.headD 0) :: q.iters.drop (q.idx + 1)) q.idx 0
    rw [Nat.add_zero, onesFrom_zero] at h
    rw [h]
    exact (ones_pairwise _).map _ (fun a b hab => by omega)

theorem onesAt_pairwise (W : Nat) (T : TreeSpec δ) (p : List Nat) :
    (onesAt W T p).Pairwise (· < ·) := List.Pairwise.filter _ List.pairwise_lt_range

theorem onesAt_ne_nil {W : Nat} {T : TreeSpec δ} {p : List Nat} {j : Nat} (hj : j < W)
    (h : T.bits p j = true) : onesAt W T p ≠ [] :=
  List.ne_nil_of_mem (List.mem_filter.2 ⟨List.mem_range.2 hj, h⟩)

/-- In an exact tree the search goes to the lowest level with a remaining bit and from there
straight down to the next element. -/
theorem loop_find (L : Lawful I s T K) (hex : I.exact = true) : ∀ (d k f : Nat)
    (st : IterSt (Cur × List (Nat × Nat))) (p : List Nat) (x : Nat) (rest : List Nat),
    ItInv (traced I) T (tracedRel K) st p → k + d + 1 = I.D → k ≤ p.length → d < f →
    remAt st.iters k = x :: rest → (∀ j, k < j → remAt st.iters j = []) →
    (∀ j, (remAt st.iters j).Pairwise (· < ·)) →
    (∀ j a, j < k → p[j]? = some a → ∀ z ∈ remAt st.iters j, a < z) →
    ∃ st' p' y, (traced I).iterLoop s f st = .ok (some y, st') ∧
      ItInv (traced I) T (tracedRel K) st' p' ∧ p'.length + 1 = I.D ∧
      (p' ++ [y]).take (k + 1) = p.take k ++ [x] ∧
      st'.cur.2 = st.cur.2 ++ callsFrom I.D k (p' ++ [y]) ∧
      (∀ j, (remAt st'.iters j).Pairwise (· < ·)) ∧
      (∀ (j : Nat) a, (p' ++ [y])[j]? = some a → ∀ z ∈ remAt st'.iters j, a < z) := by
  have L' := traced_lawful L
  intro d
  induction d with
  | zero =>
    intro k f st p x rest h hk hkp hf hr ha hs hg
    obtain ⟨f, rfl⟩ : ∃ g, f = g + 1 := ⟨f - 1, by omega⟩
    have hkD : k = I.D - 1 := by omega
    have hD : (traced I).D = I.D := rfl
    rcases loop_round L' f st p h with ⟨st', y, rest', e, i1, i2, i3, i4, i5, i6⟩ |
      ⟨st', -, -, -, i3, -⟩ | ⟨st', k', x', rest', m, -, a1, -, -, -, a5, a6, -⟩
    · rw [hD] at i2 i3 i4 i5
      rw [← hkD, hr] at i3
      injection i3 with q1 q2
      subst q1 q2
      rw [← hkD] at i4
      have hpl : p.length = k := by omega
      refine ⟨st', p, x, e, i1, i2, ?_, ?_, ?_, ?_⟩
      · rw [List.take_of_length_le (by simp; omega), List.take_of_length_le (by omega)]
      · rw [i6, hkD, callsFrom_last, List.append_nil]
      · intro j
        by_cases hj : j = k
        · subst hj; rw [i4]; have := hs j; rw [hr] at this; exact (List.pairwise_cons.1 this).2
        · rw [i5 j (by omega)]; exact hs j
      · intro j a hja z hz
        by_cases hj : j = k
        · subst hj
          rw [i4] at hz
          rw [List.getElem?_append_right (by omega), hpl, Nat.sub_self] at hja
          simp at hja
          subst hja
          have := hs j; rw [hr] at this
          exact (List.pairwise_cons.1 this).1 z hz
        · rw [i5 j (by omega)] at hz
          have hjl : j < (p ++ [x]).length := by
            apply Classical.byContradiction; intro hc
            rw [List.getElem?_eq_none (by omega)] at hja; cases hja
          rw [List.getElem?_append_left (by simp at hjl; omega)] at hja
          exact hg j a (by simp at hjl; omega) hja z hz
    · rw [i3 k] at hr; cases hr
    · rw [hD] at a1
      have := a6 k (by omega)
      rw [hr] at this; cases this
  | succ d ih =>
    intro k f st p x rest h hk hkp hf hr ha hs hg
    obtain ⟨f, rfl⟩ : ∃ g, f = g + 1 := ⟨f - 1, by omega⟩
    have hD : (traced I).D = I.D := rfl
    rcases loop_round L' f st p h with ⟨st', y, rest', e, i1, i2, i3, i4, i5, i6⟩ |
      ⟨st', -, -, -, i3, -⟩ |
      ⟨st', k', x', rest', m, e, a1, a2, a3, a4, a5, a6, a7, a8, a9, a10, a11⟩
    · rw [hD] at i3
      have := ha (I.D - 1) (by omega)
      rw [i3] at this; cases this
    · rw [i3 k] at hr; cases hr
    · have hkk : k' = k := by
        rcases Nat.lt_trichotomy k' k with q | q | q
        · have := a6 k q; rw [hr] at this; cases this
        · exact q
        · have := ha k' q; rw [a5] at this; cases this
      subst hkk
      rw [hr] at a5
      injection a5 with q1 q2
      subst q1 q2
      have hpl : (p.take k').length = k' := by simp; omega
      have hqlen : (p.take k' ++ [x]).length = k' + 1 := by simp [hpl]
      have hW : (traced I).N = I.N := rfl
      rw [hW] at a8
      obtain ⟨z, hz⟩ := L.wf.exact_child hex (p.take k') x (h.pval.take k') (by rw [hpl]; omega) a4
      have hzW := L.wf.bits_lt _ _ hz
      cases h1 : remAt st'.iters (k' + 1) with
      | nil => rw [a8] at h1; exact absurd h1 (onesAt_ne_nil hzW hz)
      | cons x1 rest1 =>
        have hs' : ∀ j, (remAt st'.iters j).Pairwise (· < ·) := by
          intro j
          rcases Nat.lt_trichotomy j k' with q | q | q
          · rw [a9 j q]; exact hs j
          · subst q; rw [a7]; have := hs j; rw [hr] at this; exact (List.pairwise_cons.1 this).2
          · by_cases q' : j = k' + 1
            · subst q'; rw [a8]; exact onesAt_pairwise _ _ _
            · rw [a10 j (by omega)]; exact List.Pairwise.nil
        have hg' : ∀ j a, j < k' + 1 → (p.take k' ++ [x])[j]? = some a →
            ∀ z ∈ remAt st'.iters j, a < z := by
          intro j a hj hja w hw
          by_cases q : j = k'
          · subst q
            rw [List.getElem?_append_right (by omega), hpl, Nat.sub_self] at hja
            simp at hja
            subst hja
            rw [a7] at hw
            have := hs j; rw [hr] at this
            exact (List.pairwise_cons.1 this).1 w hw
          · rw [a9 j (by omega)] at hw
            rw [List.getElem?_append_left (by omega), List.getElem?_take_of_lt (by omega)] at hja
            exact hg j a (by omega) hja w hw
        obtain ⟨st2, p2, y, e2, b1, b2, b3, b4, b5, b6⟩ := ih (k' + 1) f st' (p.take k' ++ [x]) x1 rest1
          a3 (by omega) (by omega) (by omega) h1 (fun j hj => a10 j hj) hs' hg'
        refine ⟨st2, p2, y, e.trans e2, b1, b2, ?_, ?_, b5, b6⟩
        · have b3' : (p2 ++ [y]).take (k' + 1 + 1) = (p.take k' ++ [x]) ++ [x1] := by
            rw [b3, List.take_of_length_le (by omega : (p.take k' ++ [x]).length ≤ k' + 1)]
          calc (p2 ++ [y]).take (k' + 1) = ((p2 ++ [y]).take (k' + 1 + 1)).take (k' + 1) := by
                rw [List.take_take, Nat.min_eq_left (by omega)]
            _ = ((p.take k' ++ [x]) ++ [x1]).take (k' + 1) := by rw [b3']
            _ = p.take k' ++ [x] := by
                rw [List.take_append_of_le_length (by omega), List.take_of_length_le (by omega)]
        · have hx : (p2 ++ [y]).getD k' 0 = x := by
            have h2 : ((p2 ++ [y]).take (k' + 1 + 1))[k']? = some x := by
              rw [b3, List.take_of_length_le (by omega : (p.take k' ++ [x]).length ≤ k' + 1),
                List.getElem?_append_left (by omega),
                List.getElem?_append_right (by omega), hpl, Nat.sub_self]; rfl
            rw [List.getElem?_take_of_lt (by omega)] at h2
            rw [List.getD_eq_getElem?_getD, h2]; rfl
          rw [b4, callsFrom_cons _ (by omega : k' + 1 < I.D), hx]
          have : st'.cur.2 = st.cur.2 ++ [(k' + 1, x)] := by
            simp only [traced] at a11
            cases q : I.selectU st.cur.1 s (k' + 1) x with
            | error e => rw [q] at a11; cases a11
            | ok r =>
              rw [q] at a11
              simp only [bind_ok, pure_eq_ok, Except.ok.injEq, Prod.mk.injEq] at a11
              rw [← a11.2]
          rw [this, List.append_assoc]; rfl

/-- Length of the longest common prefix. -/
def commonLen : List Nat → List Nat → Nat
  | a :: p, b :: q => if a = b then commonLen p q + 1 else 0
  | _, _ => 0

theorem commonLen_eq : ∀ (k : Nat) (p q : List Nat) {a b : Nat}, p.take k = q.take k →
    p[k]? = some a → q[k]? = some b → a ≠ b → commonLen p q = k := by
  intro k
  induction k with
  | zero =>
    intro p q a b _ ha hb hne
    cases p with
    | nil => cases ha
    | cons x p =>
      cases q with
      | nil => cases hb
      | cons y q =>
        simp at ha hb
        subst ha hb
        simp [commonLen, hne]
  | succ k ih =>
    intro p q a b ht ha hb hne
    cases p with
    | nil => cases ha
    | cons x p =>
      cases q with
      | nil => cases hb
      | cons y q =>
        simp at ha hb ht
        simp [commonLen, ht.1, ih p q ht.2 ha hb hne]

/-- The select calls made by a `next` that returns the element with coordinates `q`, the previous
element having had coordinates `prev` (`[]`: there is none): one for each level below the deepest node
the two have in common. -/
def stepCalls (D : Nat) (prev q : List Nat) : List (Nat × Nat) := callsFrom D (commonLen prev q) q

/-- Results and select calls of `n` successive `next`s when the elements `E` are still to come. -/
def traceSpec {δ : Type} (W D : Nat) : List Nat → List (Nat × δ) → Nat →
    List (Option (Nat × δ) × List (Nat × Nat))
  | _, _, 0 => []
  | prev, [], n + 1 => (none, []) :: traceSpec W D prev [] n
  | prev, e :: E, n + 1 => (some e, stepCalls D prev (path W D e.1)) :: traceSpec W D (path W D e.1) E n

theorem dead_below {W D : Nat} {content : List Nat → Option δ} {l : List BitsIter} {p : List Nat}
    (h : ∀ j, remAt l j = []) : ∀ n, remBelow W D content l p n = [] := by
  intro n
  induction n with
  | zero => rfl
  | succ n ihn => rw [remBelow, h n, ihn]; rfl

theorem itInv_reset {st : IterSt (Cur × List (Nat × Nat))} {p : List Nat}
    (h : ItInv (traced I) T (tracedRel K) st p) :
    ItInv (traced I) T (tracedRel K) { st with cur := (st.cur.1, []) } p :=
  ⟨h.plen, h.pval, h.ppos, h.lidxlen, h.lidx, h.len, h.wf, h.above, h.bits⟩

theorem calls_spec (L : Lawful I s T K) (hex : I.exact = true) {fuel : Nat} (hf : I.D ≤ fuel) :
    ∀ (n : Nat) (st : IterSt (Cur × List (Nat × Nat))) (p q : List Nat),
    ItInv (traced I) T (tracedRel K) st p →
    (q = [] ∧ p = [] ∨ p.length + 1 = I.D ∧ ∃ y, q = p ++ [y]) →
    (∀ j, (remAt st.iters j).Pairwise (· < ·)) →
    (∀ (j : Nat) a, q[j]? = some a → ∀ z ∈ remAt st.iters j, a < z) →
    I.iterCalls s fuel n st =
      .ok (traceSpec (width I.N) I.D q (remBelow (width I.N) I.D T.content st.iters p I.D) n) := by
  have L' := traced_lawful L
  have hD : (traced I).D = I.D := rfl
  have hN : (traced I).N = I.N := rfl
  have hDp : 0 < I.D := L.cfg.depth
  intro n
  induction n with
  | zero => intro st p q _ _ _ _; cases remBelow (width I.N) I.D T.content st.iters p I.D <;> rfl
  | succ n ih =>
    intro st p q h hq hs hg
    have h0 := itInv_reset h
    by_cases hall : ∀ j, remAt st.iters j = []
    · obtain ⟨f, rfl⟩ : ∃ g, fuel = g + 1 := ⟨fuel - 1, by omega⟩
      rw [dead_below hall]
      rcases loop_round L' f _ p h0 with ⟨st', y, rest', e, i1, i2, i3, -⟩ |
        ⟨st', e, i1, i2, -, i4⟩ | ⟨st', k', x', rest', m, e, a1, a2, a3, a4, a5, -⟩
      · rw [hall] at i3; cases i3
      · have hnext : (traced I).iterNext s (f + 1) { st with cur := (st.cur.1, []) } = .ok (none, st') := by
          simp only [Impl.iterNext, e, bind_ok, pure_eq_ok]
        simp only [Impl.iterCalls, hnext, bind_ok]
        rw [ih st' p q i1 hq (fun j => by rw [i2]; exact List.Pairwise.nil)
          (fun j a _ z hz => by rw [i2] at hz; cases hz)]
        simp only [bind_ok, pure_eq_ok, dead_below i2, i4]
        rfl
      · rw [hall] at a5; cases a5
    · -- the lowest level with a remaining bit
      obtain ⟨k, x, rest, hr, ha⟩ : ∃ k x rest, remAt st.iters k = x :: rest ∧
          ∀ j, k < j → remAt st.iters j = [] := by
        have key : ∀ m, (∀ j, m ≤ j → remAt st.iters j = []) → ∃ k x rest,
            remAt st.iters k = x :: rest ∧ ∀ j, k < j → remAt st.iters j = [] := by
          intro m
          induction m with
          | zero => intro hm; exact absurd (fun j => hm j (Nat.zero_le j)) hall
          | succ m ihm =>
            intro hm
            cases hr : remAt st.iters m with
            | nil =>
              exact ihm (fun j hj => by
                by_cases e : j = m
                · rw [e, hr]
                · exact hm j (by omega))
            | cons x rest => exact ⟨m, x, rest, hr, fun j hj => hm j hj⟩
        exact key (p.length + 1) (fun j hj => h.above j hj)
      have hkp : k ≤ p.length := by
        apply Classical.byContradiction
        intro hc
        rw [h.above k (by omega)] at hr; cases hr
      have hpl := h.plen
      rw [hD] at hpl
      have hqp : ∀ (j : Nat) a, j < p.length → p[j]? = some a → q[j]? = some a := by
        intro j a hj hja
        rcases hq with ⟨-, rfl⟩ | ⟨-, y, rfl⟩
        · simp at hj
        · rw [List.getElem?_append_left hj]; exact hja
      obtain ⟨st', p', y, e, i1, i2, i3, i4, i5, i6⟩ := loop_find L hex (I.D - 1 - k) k fuel
        { st with cur := (st.cur.1, []) } p x rest h0 (by omega) hkp (by omega) hr ha hs
        (fun j a hj hja => hg j a (hqp j a (by omega) hja))
      have e' := iterLoop_mono fuel (max fuel (mu (width I.N) I.D st.iters I.D + 1)) _ _ e
        (Nat.le_max_left _ _)
      rcases loop_spec L' (max fuel (mu (width I.N) I.D st.iters I.D + 1)) _ p h0 (by
          show mu (width I.N) I.D st.iters I.D < _
          omega) with ⟨st2, p2, e2, -⟩ | ⟨st2, p2, x2, d2, e2, j1, j2, j3, j4, j5, -⟩
      · rw [e'] at e2; cases e2
      · rw [e'] at e2
        injection e2 with e2
        injection e2 with e3 e4
        injection e3 with e3
        subst e3 e4
        have hpp : p2 = p' := by
          rw [← j1.lidx, ← i1.lidx]
          congr 1
          rw [hD] at j2
          omega
        subst hpp
        have hv : ValidPath (width I.N) (p2 ++ [y]) := j1.pval.append j3
        have hl2 : (p2 ++ [y]).length = I.D := by simp; omega
        have hdat := L'.curDataU_eq st'.cur p2 y d2 j1.ppos j1.pval j3 j2 j4
        have hidx := dataBlockIndex_eq L'.cfg j2 j1.pval j3 j1.lidx
        have hnext : (traced I).iterNext s fuel { st with cur := (st.cur.1, []) } =
            .ok (some (unpath (width I.N) (p2 ++ [y]), d2), st') := by
          simp only [Impl.iterNext, e, bind_ok, hdat, hidx, pure_eq_ok]
          rfl
        have hcom : commonLen q (p2 ++ [y]) = k := by
          rcases hq with ⟨rfl, rfl⟩ | ⟨hpD, y0, rfl⟩
          · simp at hkp; rw [hkp]; rfl
          · have hlt : k < (p ++ [y0]).length := by simp; omega
            have hx : (p2 ++ [y])[k]? = some x := by
              have : ((p2 ++ [y]).take (k + 1))[k]? = some x := by
                rw [i3, List.getElem?_append_right (by simp; omega)]
                simp [Nat.min_eq_left hkp]
              rwa [List.getElem?_take_of_lt (by omega)] at this
            have htk : (p ++ [y0]).take k = (p2 ++ [y]).take k := by
              calc (p ++ [y0]).take k = p.take k := List.take_append_of_le_length hkp
                _ = (p.take k ++ [x]).take k := by
                    rw [List.take_append_of_le_length (by simp; omega), List.take_take, Nat.min_self]
                _ = ((p2 ++ [y]).take (k + 1)).take k := by rw [i3]
                _ = (p2 ++ [y]).take k := by rw [List.take_take, Nat.min_eq_left (by omega)]
            refine commonLen_eq k _ _ htk (List.getElem?_eq_getElem hlt) hx ?_
            have := hg k _ (List.getElem?_eq_getElem hlt) x (by rw [hr]; simp)
            omega
        have hpath : path (width I.N) I.D (unpath (width I.N) (p2 ++ [y])) = p2 ++ [y] := by
          rw [← hl2]; exact path_unpath hv
        change remBelow (width I.N) I.D T.content st.iters p I.D = _ at j5
        rw [j5]
        simp only [Impl.iterCalls, hnext, bind_ok]
        rw [ih st' p2 (p2 ++ [y]) i1 (Or.inr ⟨i2, y, rfl⟩) i5 i6]
        simp only [bind_ok, pure_eq_ok, traceSpec]
        rw [hN, hD, hpath, stepCalls, hcom, i4]
        rfl

theorem iterTrace_spec (L : Lawful I s T K) (hex : I.exact = true) {fuel : Nat} (hf : I.D ≤ fuel)
    (n : Nat) : I.iterTrace s fuel n =
      .ok ([(0, 0)], traceSpec (width I.N) I.D [] (entries (width I.N) I.D T.content) n) := by
  have L' := traced_lawful L
  obtain ⟨st, e, h, hr⟩ := iterNew_spec L'
  have hlog : st.cur.2 = [(0, 0)] := by
    obtain ⟨c, hc, hci⟩ := L.new_ok
    obtain ⟨m, c', hsel, -⟩ := L.selectU_root c 0 hci rfl
    have hn : (traced I).new s = .ok (c, []) := by simp [traced, hc]
    have hs : (traced I).selectU (c, []) s 0 0 = .ok (m, (c', [(0, 0)])) := by simp [traced, hsel]
    have hD : 0 < (traced I).D := L.cfg.depth
    simp only [Impl.iterNew, hn, hs, bind_ok, pure_eq_ok] at e
    rw [if_neg (by simp; omega)] at e
    injection e with e
    rw [← e]
  simp only [Impl.iterTrace, e, bind_ok]
  rw [calls_spec L hex hf n st [] [] h (Or.inl ⟨rfl, rfl⟩) ?_ (fun j a hj => by simp at hj)]
  · simp only [bind_ok, pure_eq_ok, hlog]
    rw [show remBelow (width I.N) I.D T.content st.iters [] I.D = _ from hr]
    rfl
  · intro j
    cases hj : st.iters[j]? with
    | none => simp [remAt, hj]
    | some it => rw [remAt_of_some hj]; exact rem_pairwise it

/-! ## Recording changes nothing -/

/-- Forget the record. -/
def eraseSt (st : IterSt (Cur × List (Nat × Nat))) : IterSt Cur := ⟨st.iters, st.lidx, st.cur.1⟩

theorem visit_erase (st : IterSt (Cur × List (Nat × Nat))) (i : Nat) :
    I.iterVisit s (eraseSt st) i =
      ((traced I).iterVisit s st i).map (fun r => (eraseSt r.1, r.2)) := by
  unfold Impl.iterVisit eraseSt
  cases getU st.iters i with
  | error e => rfl
  | ok it =>
    simp only [bind_ok]
    cases it.next with
    | error e => rfl
    | ok r =>
      obtain ⟨o, it'⟩ := r
      simp only [bind_ok]
      cases setU st.iters i it' with
      | error e => rfl
      | ok iters =>
        simp only [bind_ok]
        cases o with
        | none => rfl
        | some index =>
          simp only
          cases setU st.lidx i index with
          | error e => rfl
          | ok lidx =>
            simp only [bind_ok, traced]
            cases I.selectU st.cur.1 s (i + 1) index with
            | error e => rfl
            | ok r =>
              obtain ⟨m, c⟩ := r
              simp only [bind_ok, pure_eq_ok]
              cases setU iters (i + 1) (intoBitsIter m) with
              | error e => rfl
              | ok iters' => rfl

theorem visitList_erase : ∀ (l : List Nat) (st : IterSt (Cur × List (Nat × Nat))),
    visitList (I.iterVisit s) l (eraseSt st) =
      (visitList ((traced I).iterVisit s) l st).map (fun r => (eraseSt r.1, r.2)) := by
  intro l
  induction l with
  | nil => intro st; rfl
  | cons i l ih =>
    intro st
    simp only [visitList, visit_erase]
    cases (traced I).iterVisit s st i with
    | error e => rfl
    | ok r =>
      obtain ⟨st', b⟩ := r
      cases b with
      | true => rfl
      | false => exact ih st'

theorem loop_erase : ∀ (f : Nat) (st : IterSt (Cur × List (Nat × Nat))),
    I.iterLoop s f (eraseSt st) =
      ((traced I).iterLoop s f st).map (fun r => (r.1, eraseSt r.2)) := by
  intro f
  induction f with
  | zero => intro st; rfl
  | succ f ih =>
    intro st
    rw [iterLoop_succ, iterLoop_succ]
    show (do let it ← getP st.iters (st.iters.length - 1); _) = _
    cases getP st.iters (st.iters.length - 1) with
    | error e => rfl
    | ok it =>
      simp only [bind_ok]
      cases it.next with
      | error e => rfl
      | ok r =>
        obtain ⟨o, it'⟩ := r
        simp only [bind_ok]
        cases o with
        | some x => rfl
        | none =>
          simp only [constForRev, iterateAsRangeRev_zero]
          have h := visitList_erase (I := I) (s := s) (List.range (I.D - 1)).reverse
            { st with iters := st.iters.set (st.iters.length - 1) it' }
          simp only [eraseSt] at h ⊢
          rw [h]
          show _ = Except.map _ (do
            let r ← visitList ((traced I).iterVisit s) (List.range (I.D - 1)).reverse
              { st with iters := st.iters.set (st.iters.length - 1) it' }
            if r.2 then (traced I).iterLoop s f r.1 else pure (none, r.1))
          cases visitList ((traced I).iterVisit s) (List.range (I.D - 1)).reverse
              { st with iters := st.iters.set (st.iters.length - 1) it' } with
          | error e => rfl
          | ok r =>
            obtain ⟨st', b⟩ := r
            cases b with
            | true => exact ih st'
            | false => rfl

theorem next_erase (f : Nat) (st : IterSt (Cur × List (Nat × Nat))) :
    I.iterNext s f (eraseSt st) =
      ((traced I).iterNext s f st).map (fun r => (r.1, eraseSt r.2)) := by
  unfold Impl.iterNext
  rw [loop_erase]
  cases (traced I).iterLoop s f st with
  | error e => rfl
  | ok r =>
    obtain ⟨o, st'⟩ := r
    cases o with
    | none => rfl
    | some x =>
      show (do let d ← I.curDataU st'.cur.1 s x; _) = _
      simp only [Except.map, bind_ok]
      show _ = Except.map _ (do let d ← I.curDataU st'.cur.1 s x; _)
      cases I.curDataU st'.cur.1 s x with
      | error e => rfl
      | ok d =>
        simp only [bind_ok]
        show (do let i ← dataBlockIndex I.N I.D st'.lidx x; _) =
          Except.map _ (do let i ← dataBlockIndex I.N I.D st'.lidx x; _)
        cases dataBlockIndex I.N I.D st'.lidx x with
        | error e => rfl
        | ok i => rfl

theorem take_erase (f : Nat) : ∀ (n : Nat) (st : IterSt (Cur × List (Nat × Nat))),
    I.iterTake s f n (eraseSt st) = (I.iterCalls s f n st).map (List.map Prod.fst) := by
  intro n
  induction n with
  | zero => intro st; rfl
  | succ n ih =>
    intro st
    simp only [Impl.iterTake, Impl.iterCalls]
    rw [show eraseSt st = eraseSt { st with cur := (st.cur.1, []) } from rfl, next_erase]
    cases (traced I).iterNext s f { st with cur := (st.cur.1, []) } with
    | error e => rfl
    | ok r =>
      obtain ⟨o, st'⟩ := r
      simp only [Except.map, bind_ok]
      rw [ih]
      cases I.iterCalls s f n st' with
      | error e => rfl
      | ok l => rfl

/-- Recording changes nothing: for every tree type (lawful or not), the results of `next` in a recorded
run are those of the plain run. -/
theorem run_erase (f n : Nat) :
    I.iterRun s f n = (I.iterTrace s f n).map (fun r => r.2.map Prod.fst) := by
  unfold Impl.iterRun Impl.iterTrace
  have h : I.iterNew s = ((traced I).iterNew s).map eraseSt := by
    unfold Impl.iterNew
    cases hc : I.new s with
    | error e =>
      have hn : (traced I).new s = .error e := by simp [traced, hc]
      rw [hn]; rfl
    | ok c =>
      have hn : (traced I).new s = .ok (c, []) := by simp [traced, hc]
      simp only [hn, bind_ok, pure_eq_ok]
      cases hs : I.selectU c s 0 0 with
      | error e =>
        have hs' : (traced I).selectU (c, []) s 0 0 = .error e := by simp [traced, hs]
        rw [hs']; rfl
      | ok r =>
        have hs' : (traced I).selectU (c, []) s 0 0 = .ok (r.1, (r.2, [(0, 0)])) := by
          simp [traced, hs]
        simp only [hs', bind_ok]
        by_cases h0 : (List.replicate I.D (BitsIter.empty I.N)).length = 0
        · rw [if_pos h0, if_pos (show (List.replicate (traced I).D (BitsIter.empty (traced I).N)).length = 0 from h0)]; rfl
        · rw [if_neg h0, if_neg (show ¬ (List.replicate (traced I).D (BitsIter.empty (traced I).N)).length = 0 from h0)]; rfl
  rw [h]
  cases (traced I).iterNew s with
  | error e => rfl
  | ok st =>
    simp only [Except.map, bind_ok]
    rw [take_erase]
    cases I.iterCalls s f n st with
    | error e => rfl
    | ok l => rfl

/-! ## Depth-first order, for every tree -/

/-- The nodes from `q` down (`d` levels of them, `q` included) that are reached through set bits, in
depth-first ascending order. -/
def nodesUnder (W : Nat) (B : List Nat → Nat → Bool) : Nat → List Nat → List (List Nat)
  | 0, _ => []
  | d + 1, q => q :: ((List.range W).filter (fun x => B q x)).flatMap
      (fun x => nodesUnder W B d (q ++ [x]))

/-- The select call for the node at path `q`. -/
def callOf (q : List Nat) : Nat × Nat := (q.length, q.getLastD 0)

/-- The nodes still to be selected from levels `< n`. -/
def pending (W D : Nat) (B : List Nat → Nat → Bool) (l : List BitsIter) (p : List Nat) :
    Nat → List (List Nat)
  | 0 => []
  | n + 1 => (remAt l n).flatMap (fun x => nodesUnder W B (D - n - 1) (p.take n ++ [x])) ++
      pending W D B l p n

theorem pending_congr {W D : Nat} {B : List Nat → Nat → Bool} {l l' : List BitsIter}
    {p p' : List Nat} : ∀ (n : Nat),
    (∀ j < n, remAt l j = remAt l' j ∧ (remAt l j ≠ [] → p.take j = p'.take j)) →
    pending W D B l p n = pending W D B l' p' n := by
  intro n
  induction n with
  | zero => intro _; rfl
  | succ n ih =>
    intro h
    simp only [pending]
    obtain ⟨h1, h2⟩ := h n (by omega)
    rw [← h1, ih (fun j hj => h j (by omega))]
    congr 1
    by_cases he : remAt l n = []
    · simp [he]
    · rw [h2 he]

theorem pending_split {W D : Nat} {B : List Nat → Nat → Bool} {l : List BitsIter}
    {p : List Nat} {n : Nat} (ha : ∀ j, n < j → remAt l j = []) :
    ∀ k, n < k → pending W D B l p k =
      (remAt l n).flatMap (fun x => nodesUnder W B (D - n - 1) (p.take n ++ [x])) ++
        pending W D B l p n := by
  intro k
  induction k with
  | zero => intro h; omega
  | succ k ih =>
    intro h
    by_cases he : k = n
    · subst he; rfl
    · rw [pending, ha k (by omega), ih (by omega)]; simp

theorem pending_nil {W D : Nat} {B : List Nat → Nat → Bool} {l : List BitsIter} {p : List Nat}
    (h : ∀ j, remAt l j = []) : ∀ n, pending W D B l p n = [] := by
  intro n
  induction n with
  | zero => rfl
  | succ n ihn => rw [pending, h n, ihn]; rfl

/-- The terminal level has no nodes below it. -/
theorem pending_hit {D : Nat} {B : List Nat → Nat → Bool} {W : Nat} {l l' : List BitsIter} {p : List Nat}
    (hD : 0 < D) (h : ∀ j, j ≠ D - 1 → remAt l j = remAt l' j) :
    pending W D B l p D = pending W D B l' p D := by
  obtain ⟨d, rfl⟩ : ∃ d, D = d + 1 := ⟨D - 1, by omega⟩
  have h0 : d + 1 - d - 1 = 0 := by omega
  simp only [pending, h0, nodesUnder]
  rw [pending_congr d (fun j hj => ⟨h j (by omega), fun _ => rfl⟩)]
  have hn : ∀ a : List Nat, a.flatMap (fun _ => ([] : List (List Nat))) = [] := by
    intro a; induction a with
    | nil => rfl
    | cons x a ih => rw [List.flatMap_cons, ih]; rfl
  rw [hn, hn]

/-- One descent of the search loop turns the first pending node into a select call. -/
theorem pending_step {W D k x : Nat} {rest : List Nat} {B : List Nat → Nat → Bool}
    {l l' : List BitsIter} {p : List Nat} (hk : k + 1 < D) (hkp : k ≤ p.length)
    (h1 : remAt l k = x :: rest) (h2 : ∀ j, k < j → remAt l j = []) (h3 : remAt l' k = rest)
    (h4 : remAt l' (k + 1) = (List.range W).filter (fun j => B (p.take k ++ [x]) j))
    (h5 : ∀ j, j < k → remAt l' j = remAt l j) (h6 : ∀ j, k + 1 < j → remAt l' j = []) :
    pending W D B l p D =
      (p.take k ++ [x]) :: pending W D B l' (p.take k ++ [x]) D := by
  have hpl : (p.take k).length = k := by simp; omega
  rw [pending_split h2 D (by omega), pending_split h6 D (by omega), h1, h4]
  have e1 : D - k - 1 = (D - (k + 1) - 1) + 1 := by omega
  rw [List.flatMap_cons, pending, h3]
  conv => lhs; rw [e1, nodesUnder]
  have htk : (p.take k ++ [x]).take (k + 1) = p.take k ++ [x] := List.take_of_length_le (by simp; omega)
  have htk' : (p.take k ++ [x]).take k = p.take k := by
    rw [List.take_append_of_le_length (by omega), List.take_of_length_le (by omega)]
  rw [htk, htk', ← e1]
  simp only [List.cons_append, List.append_assoc]
  congr 2
  congr 1
  apply pending_congr
  intro j hj
  refine ⟨(h5 j hj).symm, fun _ => ?_⟩
  rw [List.take_append_of_le_length (by omega), List.take_take, Nat.min_eq_left (by omega)]

/-- The search loop selects pending nodes only, in order. -/
theorem loop_order (L : Lawful I s T K) : ∀ (f : Nat) (st : IterSt (Cur × List (Nat × Nat)))
    (p : List Nat) o st', ItInv (traced I) T (tracedRel K) st p →
    (traced I).iterLoop s f st = .ok (o, st') →
    ∃ p' ns, ItInv (traced I) T (tracedRel K) st' p' ∧ st'.cur.2 = st.cur.2 ++ ns.map callOf ∧
      pending (width I.N) I.D T.bits st.iters p I.D =
        ns ++ pending (width I.N) I.D T.bits st'.iters p' I.D ∧
      (o = none → ∀ j, remAt st'.iters j = []) ∧ (o ≠ none → p'.length + 1 = I.D) := by
  have L' := traced_lawful L
  intro f
  induction f with
  | zero => intro st p o st' _ e; cases e
  | succ f ih =>
    intro st p o st' h e
    rcases loop_round L' f st p h with ⟨st1, y, rest', e1, i1, i2, i3, i4, i5, i6⟩ |
      ⟨st1, e1, i1, i2, i3, i4⟩ |
      ⟨st1, k', x', rest', m, e1, a1, a2, a3, a4, a5, a6, a7, a8, a9, a10, a11⟩
    · rw [e1] at e
      injection e with e
      injection e with q1 q2
      subst q1 q2
      refine ⟨p, [], i1, by simp [i6], ?_, fun h => (by cases h), fun _ => i2⟩
      exact pending_hit L.cfg.depth (fun j hj => (i5 j hj).symm)
    · rw [e1] at e
      injection e with e
      injection e with q1 q2
      subst q1 q2
      refine ⟨p, [], i1, by simp [i4], ?_, fun _ => i2, fun h => absurd rfl h⟩
      rw [pending_nil i2, pending_nil i3]; rfl
    · rw [e1] at e
      obtain ⟨p', ns, b1, b2, b3, b4, b5⟩ := ih st1 _ o st' a3 e
      refine ⟨p', (p.take k' ++ [x']) :: ns, b1, ?_, ?_, b4, b5⟩
      · have : st1.cur.2 = st.cur.2 ++ [(k' + 1, x')] := by
          simp only [traced] at a11
          cases q : I.selectU st.cur.1 s (k' + 1) x' with
          | error e => rw [q] at a11; cases a11
          | ok r =>
            rw [q] at a11
            simp only [bind_ok, pure_eq_ok, Except.ok.injEq, Prod.mk.injEq] at a11
            rw [← a11.2]
        rw [b2, this, List.map_cons, List.append_assoc]
        have : callOf (p.take k' ++ [x']) = (k' + 1, x') := by simp [callOf, a2]
        rw [this]; rfl
      · exact (pending_step (D := I.D) (W := width I.N) (B := T.bits) a1 a2 a5 a6 a7 a8 a9 a10).trans
          (by rw [b3]; rfl)

theorem calls_order (L : Lawful I s T K) {fuel : Nat} :
    ∀ (n : Nat) (st : IterSt (Cur × List (Nat × Nat))) (p : List Nat),
    ItInv (traced I) T (tracedRel K) st p → mu (width I.N) I.D st.iters I.D < fuel →
    ∃ res ns ns', I.iterCalls s fuel n st = .ok res ∧
      res.map Prod.fst = (List.range n).map
        (fun k => (remBelow (width I.N) I.D T.content st.iters p I.D)[k]?) ∧
      res.flatMap Prod.snd = ns.map callOf ∧
      pending (width I.N) I.D T.bits st.iters p I.D = ns ++ ns' ∧
      ((remBelow (width I.N) I.D T.content st.iters p I.D).length < n → ns' = []) := by
  have L' := traced_lawful L
  intro n
  induction n with
  | zero => intro st p _ _; exact ⟨[], [], _, rfl, rfl, rfl, rfl, fun h => absurd h (by omega)⟩
  | succ n ih =>
    intro st p h hf
    have h0 := itInv_reset h
    rcases loop_spec L' fuel _ p h0 hf with ⟨st1, p1, e, -, j2, j3, j4⟩ |
      ⟨st1, p1, x, d, e, j1, j2, j3, j4, j5, j6⟩
    · obtain ⟨p', ns, b1, b2, b3, b4, b5⟩ := loop_order L fuel _ p _ _ h0 e
      have hrem := b4 rfl
      have hmu : mu (width I.N) I.D st1.iters I.D < fuel := by
        refine Nat.lt_of_le_of_lt j4 hf
      obtain ⟨res, ms, ms', c1, c2, c3, c4, c5⟩ := ih st1 p' b1 hmu
      have hnext : (traced I).iterNext s fuel { st with cur := (st.cur.1, []) } = .ok (none, st1) := by
        simp only [Impl.iterNext, e, bind_ok, pure_eq_ok]
      rw [pending_nil hrem] at c4 b3
      have hms : ms = [] ∧ ms' = [] := List.append_eq_nil_iff.1 c4.symm
      refine ⟨(none, st1.cur.2) :: res, ns ++ ms, ms', ?_, ?_, ?_, ?_, fun _ => hms.2⟩
      · simp only [Impl.iterCalls, hnext, bind_ok, c1, pure_eq_ok]
      · change remBelow (width I.N) I.D T.content st.iters p I.D = [] at j2
        rw [List.map_cons, c2, j2, dead_below hrem, List.range_succ_eq_map, List.map_cons, List.map_map]
        simp
      · rw [List.flatMap_cons, c3, b2, List.map_append]
        rfl
      · rw [show pending (width I.N) I.D T.bits st.iters p I.D = _ from b3, hms.1, hms.2]
        simp
    · obtain ⟨p', ns, b1, b2, b3, b4, b5⟩ := loop_order L fuel _ p _ _ h0 e
      have hpp : p1 = p' := by
        rw [← j1.lidx, ← b1.lidx]
        congr 1
        have h5 := b5 (by simp)
        have h2 : p1.length + 1 = I.D := j2
        omega
      subst hpp
      obtain ⟨res, ms, ms', c1, c2, c3, c4, c5⟩ := ih st1 p1 b1 (Nat.lt_of_le_of_lt j6 hf)
      have hdat := L'.curDataU_eq st1.cur p1 x d j1.ppos j1.pval j3 j2 j4
      have hidx := dataBlockIndex_eq L'.cfg j2 j1.pval j3 j1.lidx
      have hnext : (traced I).iterNext s fuel { st with cur := (st.cur.1, []) } =
          .ok (some (unpath (width I.N) (p1 ++ [x]), d), st1) := by
        simp only [Impl.iterNext, e, bind_ok, hdat, hidx, pure_eq_ok]
        rfl
      change remBelow (width I.N) I.D T.content st.iters p I.D =
        (unpath (width I.N) (p1 ++ [x]), d) :: remBelow (width I.N) I.D T.content st1.iters p1 I.D at j5
      refine ⟨(some (unpath (width I.N) (p1 ++ [x]), d), st1.cur.2) :: res, ns ++ ms, ms',
        ?_, ?_, ?_, ?_, fun hn => ?_⟩
      · simp only [Impl.iterCalls, hnext, bind_ok, c1, pure_eq_ok]
      · rw [List.map_cons, c2, j5, List.range_succ_eq_map, List.map_cons, List.map_map]
        simp
      · rw [List.flatMap_cons, c3, b2, List.map_append]
        rfl
      · rw [show pending (width I.N) I.D T.bits st.iters p I.D = _ from b3, c4, List.append_assoc]
      · rw [j5] at hn
        exact c5 (by simp at hn; omega)

/-- **Iteration visits nodes depth first**: for every number `n` of `next` calls, the select calls made
so far are those of an initial part of the depth-first list of the nodes reached through set bits; of
the whole list once the iterator has returned `None`. -/
theorem iterTrace_order (L : Lawful I s T K) : ∃ F, ∀ fuel, F ≤ fuel → ∀ n,
    ∃ res ns ns', I.iterTrace s fuel n = .ok ([(0, 0)], res) ∧
      res.map Prod.fst = (List.range n).map (fun k => (entries (width I.N) I.D T.content)[k]?) ∧
      nodesUnder (width I.N) T.bits I.D [] = [] :: ns ++ ns' ∧
      res.flatMap Prod.snd = ns.map callOf ∧
      ((entries (width I.N) I.D T.content).length < n → ns' = []) := by
  have L' := traced_lawful L
  obtain ⟨st, e, h, hr⟩ := iterNew_spec L'
  have hD : 0 < I.D := L.cfg.depth
  have hN : 0 < I.N := by rcases L.cfg.words with e | e | e <;> omega
  have hst : st.cur.2 = [(0, 0)] ∧ remAt st.iters 0 = onesAt (width I.N) T [] := by
    obtain ⟨c, hc, hci⟩ := L.new_ok
    obtain ⟨m, c', hsel, hml, hmb, -⟩ := L.selectU_root c 0 hci rfl
    have hn : (traced I).new s = .ok (c, []) := by simp [traced, hc]
    have hs : (traced I).selectU (c, []) s 0 0 = .ok (m, (c', [(0, 0)])) := by simp [traced, hsel]
    have hD : 0 < (traced I).D := L.cfg.depth
    simp only [Impl.iterNew, hn, hs, bind_ok, pure_eq_ok] at e
    rw [if_neg (by simp; omega)] at e
    injection e with e
    rw [← e]
    refine ⟨rfl, ?_⟩
    show remAt ((List.replicate (traced I).D _).set 0 _) 0 = _
    rw [remAt_set_self (by simpa using hD), intoBitsIter_rem (by omega)]
    unfold Mask.ones onesAt
    rw [hml]
    show (List.range (width I.N)).filter _ = _
    apply List.filter_congr
    intro j _; exact hmb j
  have hpend : nodesUnder (width I.N) T.bits I.D [] =
      [] :: pending (width I.N) I.D T.bits st.iters [] I.D := by
    rw [pending_split (fun j hj => h.above j (by simpa using hj)) I.D hD, hst.2]
    obtain ⟨d, hd⟩ : ∃ d, I.D = d + 1 := ⟨I.D - 1, by omega⟩
    rw [hd]
    simp [nodesUnder, pending, onesAt]
  refine ⟨mu (width I.N) I.D st.iters I.D + 1, fun fuel hf n => ?_⟩
  obtain ⟨res, ns, ns', c1, c2, c3, c4, c5⟩ := calls_order L n st [] h (fuel := fuel) (by omega)
  refine ⟨res, ns, ns', ?_, ?_, ?_, c3, ?_⟩
  · simp only [Impl.iterTrace, e, bind_ok, c1, pure_eq_ok, hst.1]
  · rw [c2]
    rw [show remBelow (width I.N) I.D T.content st.iters [] I.D = _ from hr]; rfl
  · rw [hpend, c4]; rfl
  · intro hlt
    apply c5
    rw [show remBelow (width I.N) I.D T.content st.iters [] I.D = _ from hr]; exact hlt

end
end Hibit
