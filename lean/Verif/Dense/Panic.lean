import Verif.Dense.History
import Verif.Dense.Materialize
/-!
# DenseTree: histories in which `T::default()` may panic

`get_or_insert` calls the caller's `T::default()` in the middle of the insertion
(dense_tree.rs:162-166). If it unwinds and the panic is caught, the tree is left in the state at
that point.
-/
namespace Hibit.Dense
open Hibit

/-- dense_tree.rs:178-184 `get_or_insert` with a `T::default()` that panics: the walk
(dense_tree.rs:125-153) has allocated the missing nodes; if the key is present the default is not
called and the value is returned (dense_tree.rs:160-164, the result is `some` of the value seen), and
otherwise the unwinding starts at `value_fn()` in dense_tree.rs:167, before `data`, `keys` and the
terminal node are changed (the result is `none`). -/
def getOrInsertPanic {α : Type} (D : Nat) (t : DT α) (index : Nat) : R (DT α × Option α) := do
  let index ← indexFrom 1 D index
  let indices ← levelIndices 1 D index
  let w ← insertWalk D t indices
  let nodePtr ← w.read
  let innerIndex ← unwrapU indices.getLast?
  let n ← deref w.heap nodePtr
  let c ← n.contains innerIndex
  let t := { t with heap := w.heap, root := w.root }
  if c then
    let cell ← getChild w.heap nodePtr innerIndex
    let i ← cell.asIdx
    let old ← getU t.data i
    let old ← unwrapU old
    return (t, some old)
  else return (t, none)

/-- from.rs:153-165: the local `data` of `materialize` is a `Vec` of length 1 with an uninitialised
element, to which `push_fn` appends; this is its state after the pushes `kvs`. -/
def pushAll {C α : Type} (h : Heap) (c : C) (kvs : List (Nat × α)) : MSt C α :=
  kvs.foldl (fun st kv => (pushData st kv.1 kv.2).1) ⟨h, c, [none], [usizeMod - 1]⟩

/-- Dropping a `Vec<T>` whose elements are these: an uninitialised one is undefined behaviour (for a
`T` with drop glue). -/
def vecDrop {α : Type} : List (Option α) → R (List α)
  | [] => .ok []
  | v :: vs => do
    let v ← unwrapU v
    let rest ← vecDrop vs
    return v :: rest

/-- A step of a history with caught panics. -/
inductive PEvent (α : Type) where
  | op (o : Op α)
  /-- `get_or_insert(k)` with a `T::default()` that panics; the panic is caught -/
  | defaultPanics (k : Nat)

/-- One step; the output is the value observed by the caller and the values dropped by the call. -/
def pstep {α : Type} (D : Nat) (t : DT α) : PEvent α → R (DT α × Option α × List α)
  | .op o => step D t o
  | .defaultPanics k => do
    let (t, v) ← getOrInsertPanic D t k
    return (t, v, [])

/-- A history with caught panics, from left to right. -/
def prun {α : Type} (D : Nat) (t : DT α) : List (PEvent α) → R (DT α × List (Option α × List α))
  | [] => .ok (t, [])
  | e :: es => do
    let (t, o) ← pstep D t e
    let (t, os) ← prun D t es
    return (t, o :: os)

/-! ## Specification -/

/-- What a step does to a finite map: a panicking `get_or_insert` changes nothing; if the key is
present the caller sees its value (there is no panic), otherwise nothing. -/
def PEvent.spec {α : Type} (M : Nat → Option α) : PEvent α → (Nat → Option α) × Option α × List α
  | .op o => o.spec M
  | .defaultPanics k => (M, M k, [])

/-- A history with caught panics on a finite map. -/
def pspecRun {α : Type} (M : Nat → Option α) : List (PEvent α) →
    (Nat → Option α) × List (Option α × List α)
  | [] => (M, [])
  | e :: es =>
    let (M', o) := e.spec M
    let (M'', os) := pspecRun M' es
    (M'', o :: os)

/-- The keys are in range, and `remove` occurs only at depth ≥ 2. -/
def PEvent.Ok {α : Type} (D : Nat) : PEvent α → Prop
  | .op o => o.OkDepth D ∧ o.InRange (64 ^ D)
  | .defaultPanics k => 1 ≤ D ∧ k < 64 ^ D

/-- Every intermediate state of the history has fewer than `b` elements. -/
def PBounded {α : Type} (n b : Nat) (M : Nat → Option α) : List (PEvent α) → Prop
  | [] => card n M < b
  | e :: es => card n M < b ∧ PBounded n b (e.spec M).1 es

/-! ## Refinement -/

variable {α : Type} {D : Nat} {t : DT α} {M : Nat → Option α}

theorem DRep.mono {ex ex' : List Nat → Prop} (R : DRep ex D t M) (h : ∀ p, ex' p → ex p) :
    DRep ex' D t M := by
  obtain ⟨loc, K, S⟩ := R
  exact ⟨loc, K, S.tree, fun p a hp => S.exact p a (h p hp), S.data, S.den⟩

theorem DRep.weaken {ex : List Nat → Prop} (R : DRep ex D t M) : DRep NoNode D t M :=
  R.mono (fun _ h => h.elim)

/-- The terminal node of a present key is not empty. -/
theorem DRep.present {ex : List Nat → Prop} (R : DRep ex D t M) (h1 : 1 ≤ D) {k : Nat} (hk : k < 64 ^ D)
    (hM : (M k).isSome = true) : DRep (fun p => ex p ∨ p = (path 64 D k).take (D - 1)) D t M := by
  obtain ⟨loc, K, S⟩ := R
  refine ⟨loc, K, S.tree, fun p a hp ha hne => ?_, S.data, S.den⟩
  rcases hp with hp | rfl
  · exact S.exact p a hp ha hne
  · have hden := S.den k
    rw [if_pos hk] at hden
    have hPv := validPath_path hk
    have hPl := path_length 64 D k
    generalize path 64 D k = P at *
    rcases eq_nil_or_append P with rfl | ⟨p, i, rfl⟩
    · simp at hPl; omega
    have hpl : p.length + 1 = D := by simpa using hPl
    have htk : (p ++ [i]).take (D - 1) = p := by
      rw [List.take_append_of_le_length (by omega), List.take_of_length_le (by omega)]
    rw [htk]
    refine ⟨i, (ValidPath.of_append hPv).2, ?_⟩
    rw [cellsOf_term hpl]
    intro h0
    cases hK : K (p ++ [i]) with
    | some d => rw [hK] at h0; cases h0
    | none => rw [hK] at hden; rw [hden] at hM; cases hM

/-- A panicking default leaves the content unchanged; only the terminal node of the key may be left
behind empty. -/
theorem getOrInsertPanic_spec {ex : List Nat → Prop} (R : DRep ex D t M) (h1 : 1 ≤ D) (h9 : D ≤ 9) {k : Nat}
    (hk : k < 64 ^ D) : ∃ t', getOrInsertPanic D t k = .ok (t', M k) ∧
      DRep (fun p => ex p ∧ p ≠ (path 64 D k).take (D - 1)) D t' M := by
  obtain ⟨loc, K, S⟩ := R
  have hPv := validPath_path hk
  have hPl := path_length 64 D k
  obtain ⟨w, loc', b, e1, T1, hb, hs, hl⟩ := insertWalk_spec S.tree h9 h1 hPv hPl
  have hupath := unpath_path 64 D k hk
  have hlev : levelIndices 1 D k = .ok (path 64 D k) := levelIndices_ok h1 h9
  have hden := S.den k
  rw [if_pos hk] at hden
  generalize path 64 D k = P at *
  rcases eq_nil_or_append P with rfl | ⟨p, i, rfl⟩
  · simp at hPl; omega
  have hpl : p.length + 1 = D := by simpa using hPl
  have htk : (p ++ [i]).take (D - 1) = p := by
    rw [List.take_append_of_le_length (by omega), List.take_of_length_le (by omega)]
  have hp2 := hb
  rw [htk] at hp2 hs
  have hread := read_slot T1 hp2 hs
  have hlast : (p ++ [i]).getLast? = some i := by simp
  obtain ⟨hpv, hi⟩ := ValidPath.of_append hPv
  obtain ⟨n, hd, -, -, -, hrep⟩ := T1.rep.deref hp2
  have hc := hrep.contains hi
  rw [cellsOf_term hpl] at hc
  have E' : Exact (fun q => ex q ∧ q ≠ (p ++ [i]).take (D - 1)) loc' (cellsOf D loc' K) := by
    intro r a hx hr hne
    obtain ⟨hx, hnt⟩ := hx
    by_cases hpath : ∃ m, 1 ≤ m ∧ m ≤ D - 1 ∧ r = (p ++ [i]).take m
    · obtain ⟨m, m1, m2, rfl⟩ := hpath
      have hm : m ≠ D - 1 := fun e => hnt (by rw [e])
      have hlt : m < (p ++ [i]).length := by omega
      have htk' := take_succ_of_getElem? (List.getElem?_eq_getElem hlt)
      refine ⟨(p ++ [i])[m], hPv _ (List.getElem_mem _), ?_⟩
      rw [cellsOf_branch (by rw [List.length_take]; omega), ← htk']
      obtain ⟨c, hc⟩ := T1.take_live _ rfl hb (m + 1)
      rw [List.take_take, Nat.min_eq_left (by omega)] at hc
      rw [hc]; simp
    · have hnp : ∀ m, 1 ≤ m → m ≤ D - 1 → r ≠ (p ++ [i]).take m :=
        fun m g1 g2 e => hpath ⟨m, g1, g2, e⟩
      have hls := hl r hnp
      rw [hr] at hls
      obtain ⟨c, hc⟩ := Option.isSome_iff_exists.1 hls.symm
      obtain ⟨x, hxl, hF⟩ := S.exact r c hx hc hne
      refine ⟨x, hxl, ?_⟩
      unfold cellsOf at hF ⊢
      by_cases hbr : r.length + 1 < D
      · rw [if_pos hbr] at hF ⊢
        have hrx : ∀ m, 1 ≤ m → m ≤ D - 1 → r ++ [x] ≠ (p ++ [i]).take m := by
          intro m m1 m2 e
          have hlen := congrArg List.length e
          rw [List.length_append, List.length_take, List.length_singleton] at hlen
          have hr0 : 1 ≤ r.length := by
            cases r with
            | nil => exact absurd rfl hne
            | cons _ _ => simp
          refine hnp (m - 1) (by omega) (by omega) ?_
          have := congrArg (List.take (m - 1)) e
          rw [List.take_take, Nat.min_eq_left (by omega), List.take_append_of_le_length (by omega),
            List.take_of_length_le (by omega)] at this
          exact this
        have h2 := hl (r ++ [x]) hrx
        cases e : loc (r ++ [x]) with
        | none => rw [e] at hF; simp at hF
        | some y =>
          rw [e] at h2
          obtain ⟨y, hy⟩ := Option.isSome_iff_exists.1 h2
          rw [hy]; simp
      · rwa [if_neg hbr] at hF ⊢
  refine ⟨{ t with heap := w.heap, root := w.root }, ?_, loc', K, T1, E', S.data, S.den⟩
  unfold getOrInsertPanic
  rw [indexFrom_ok h9, if_pos hk]
  simp only [hlev, bind_ok, e1, hread, hlast, unwrapU, hd]
  cases hK : K (p ++ [i]) with
  | some d =>
    rw [hK] at hc hden
    simp only [Option.map_some, Option.isSome_some] at hc
    obtain ⟨g1, ov, g2⟩ := S.data.value hK
    simp only [Option.bind_some, g2, Option.join] at hden
    simp only [hc, bind_ok, if_true, T1.idx hp2 hK, Cell.asIdx, getU_some g2, pure_eq_ok]
    rw [hden]; rfl
  | none =>
    rw [hK] at hc hden
    simp only [Option.map_none, Option.isSome_none] at hc
    simp only [hc, bind_ok, Bool.false_eq_true, if_false, pure_eq_ok, hden, Option.bind_none]

/-- With a present key the panicking default changes nothing at all: the call is the ordinary
`get_or_insert`. -/
theorem getOrInsertPanic_present {k : Nat} {t' : DT α} {v : α}
    (h : getOrInsertPanic D t k = .ok (t', some v)) (d : α) :
    ∃ out, getOrInsert D t k d = .ok out ∧ out.tree = t' ∧ out.called = false ∧
      out.tree.data[out.dataIndex]? = some (some v) := by
  unfold getOrInsertPanic at h
  unfold getOrInsert getOrInsertImpl
  cases h0 : indexFrom 1 D k with
  | error e => rw [h0] at h; cases h
  | ok ix =>
  rw [h0] at h; simp only [bind_ok] at h ⊢
  cases h1 : levelIndices 1 D ix with
  | error e => rw [h1] at h; cases h
  | ok li =>
  rw [h1] at h; simp only [bind_ok] at h ⊢
  cases h2 : insertWalk D t li with
  | error e => rw [h2] at h; cases h
  | ok w =>
  rw [h2] at h; simp only [bind_ok] at h ⊢
  cases h3 : w.read with
  | error e => rw [h3] at h; cases h
  | ok p =>
  rw [h3] at h; simp only [bind_ok] at h ⊢
  cases h4 : unwrapU li.getLast? with
  | error e => rw [h4] at h; cases h
  | ok x =>
  rw [h4] at h; simp only [bind_ok] at h ⊢
  cases h5 : deref w.heap p with
  | error e => rw [h5] at h; cases h
  | ok n =>
  rw [h5] at h; simp only [bind_ok] at h ⊢
  cases h6 : n.contains x with
  | error e => rw [h6] at h; cases h
  | ok c =>
  rw [h6] at h; simp only [bind_ok] at h ⊢
  cases c with
  | false => simp [pure_eq_ok] at h
  | true =>
  simp only [if_true] at h ⊢
  cases h7 : getChild w.heap p x with
  | error e => rw [h7] at h; cases h
  | ok cell =>
  rw [h7] at h; simp only [bind_ok] at h ⊢
  cases h8 : cell.asIdx with
  | error e => rw [h8] at h; cases h
  | ok i =>
  rw [h8] at h; simp only [bind_ok, Bool.false_eq_true, if_false] at h ⊢
  cases h9 : t.data[i]? with
  | none => simp only [getU, h9, bind_err] at h; cases h
  | some o =>
    simp only [getU_some h9, bind_ok] at h ⊢
    cases o with
    | none => simp only [unwrapU, bind_err] at h; cases h
    | some o =>
      simp only [unwrapU, bind_ok, pure_eq_ok, Except.ok.injEq, Prod.mk.injEq,
        Option.some.injEq] at h ⊢
      obtain ⟨rfl, rfl⟩ := h
      exact ⟨_, rfl, rfl, rfl, h9⟩

theorem pstep_spec (R : DRep NoNode D t M) (h9 : D ≤ 9) {e : PEvent α} (hok : e.Ok D)
    (hb : card (64 ^ D) (e.spec M).1 < 2 ^ 32) :
    ∃ t', pstep D t e = .ok (t', (e.spec M).2) ∧ DRep NoNode D t' (e.spec M).1 := by
  cases e with
  | op o => exact step_spec R hok.1 h9 hok.2 hb
  | defaultPanics k =>
    obtain ⟨t', e1, R'⟩ := getOrInsertPanic_spec R hok.1 h9 hok.2
    refine ⟨t', ?_, R'.weaken⟩
    simp only [pstep, e1, bind_ok, pure_eq_ok]
    rfl

/-- **Refinement of histories with caught panics.** -/
theorem prun_spec (h9 : D ≤ 9) : ∀ (es : List (PEvent α)) (t : DT α) (M : Nat → Option α),
    DRep NoNode D t M → (∀ e ∈ es, e.Ok D) → PBounded (64 ^ D) (2 ^ 32) M es →
    ∃ t', prun D t es = .ok (t', (pspecRun M es).2) ∧ DRep NoNode D t' (pspecRun M es).1 := by
  intro es
  induction es with
  | nil => intro t M R _ _; exact ⟨t, rfl, R⟩
  | cons e es ih =>
    intro t M R hok hb
    have hb' : card (64 ^ D) (e.spec M).1 < 2 ^ 32 := by
      have := hb.2
      cases es with
      | nil => exact this
      | cons o os => exact this.1
    obtain ⟨t1, e1, R1⟩ := pstep_spec R h9 (hok e (by simp)) hb'
    obtain ⟨t2, e2, R2⟩ := ih t1 _ R1 (fun o ho => hok o (by simp [ho])) hb.2
    refine ⟨t2, ?_, R2⟩
    simp only [prun, e1, bind_ok, e2, pure_eq_ok]
    rfl

end Hibit.Dense
