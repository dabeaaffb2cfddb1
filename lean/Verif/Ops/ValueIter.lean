import Verif.Ops.Model
/-!
# The iterators handed out by `multi_union` and `multi_intersection`

`Verif/Ops/Model.lean` describes the data of a multi-tree by the list of items its iterator yields.
Here the iterators themselves are modelled as state machines with their own `next`, `fold` and
`size_hint`.

The source iterator (`Iter: Iterator<Item = &T> + Clone`) is the list of the trees it still has to
yield, with an arbitrary `size_hint` function.
-/
namespace Hibit

/-- The overridden methods of an `Iterator` with state `σ`. `fold` takes a closure that may fail. -/
structure ValIter (σ δ : Type) where
  next : σ → R (Option δ × σ)
  fold : {β : Type} → σ → β → (β → δ → R β) → R β
  hint : σ → Nat × Option Nat

/-- `m` calls of `next`: the answers and the final state. -/
def ValIter.calls {σ δ : Type} (V : ValIter σ δ) : Nat → σ → R (List (Option δ) × σ)
  | 0, st => .ok ([], st)
  | m + 1, st => do
    let (a, st) ← V.next st
    let (as, st) ← V.calls m st
    return (a :: as, st)

/-! ## Models -/

/-- `Iterator::find_map` over the sources. -/
def findMap {S δ : Type} (g : S → R (Option δ)) : List S → R (Option δ × List S)
  | [] => .ok (none, [])
  | s :: ss => do
    let d ← g s
    match d with
    | some d => return (some d, ss)
    | none => findMap g ss

/-- The loops `for x in iter { if let Some(item) = g(x) { init = f(init, item) } }`. -/
def foldSome {S δ β : Type} (g : S → R (Option δ)) (f : β → δ → R β) : List S → β → R β
  | [], b => .ok b
  | s :: ss, b => do
    let d ← g s
    match d with
    | some d => do
      let b ← f b d
      foldSome g f ss b
    | none => foldSome g f ss b

/-- _multi_union.rs:72-117 `DataUnchecked`: `next` 89-95, `fold` 98-111, `size_hint` 114-116; `data`
is `array.data(index, level_indices)`, `sh` the `size_hint` of the source iterator. -/
def muDataIter {S δ : Type} (data : S → R (Option δ)) (sh : List S → Nat × Option Nat) :
    ValIter (List S) δ where
  next := findMap data
  fold := fun ss b f => foldSome data f ss b
  hint := fun ss => (0, (sh ss).2)

/-- _multi_union.rs:253-303 `CursorData`: `next` 271-281, `fold` 284-297, `size_hint` 300-302. The
state is what `lvl_non_empty_states` still has to yield. -/
def muCursorIter {S C δ : Type} (I : Impl S C δ) (cs : List (S × C)) (i : Nat) :
    ValIter (List Nat) δ where
  next := findMap (fun k => do
    let (s, c) ← getU cs k
    I.curData c s i)
  fold := fun ks b f => foldSome (fun k => do
    let (s, c) ← getU cs k
    I.curData c s i) f ks b
  hint := fun ks => (0, some ks.length)

/-- _multi_intersection.rs:268-310 `DataUnchecked`: `next` 286-292, `fold` 295-304, `size_hint`
307-309. -/
def miDataIter {S δ : Type} (dataU : S → R δ) (sh : List S → Nat × Option Nat) :
    ValIter (List S) δ where
  next := fun ss =>
    match ss with
    | [] => .ok (none, [])
    | s :: ss => do
      let d ← dataU s
      return (some d, ss)
  fold := fun ss b f => ss.foldlM (fun b s => do let d ← dataU s; f b d) b
  hint := sh

/-- The `fold` loop of _multi_intersection.rs:500-506. -/
def miCursorFold {S C δ β : Type} (I : Impl S C δ) (i : Nat) (f : β → δ → R β) :
    List C → List S → β → R β
  | [], _, b => .ok b
  | c :: cs, ss, b => do
    let s ← unwrapU ss.head?
    let d ← I.curDataU c s i
    let b ← f b d
    miCursorFold I i f cs ss.tail b

/-- _multi_intersection.rs:453-514 `CursorData`: `next` 481-489, `fold` 494-508, `size_hint` 511-513.
The state is what `cursors_iter` and `array_iter` still have to yield. -/
def miCursorIter {S C δ : Type} (I : Impl S C δ) (i : Nat) : ValIter (List C × List S) δ where
  next := fun st =>
    match st with
    | ([], ss) => .ok (none, ([], ss))
    | (c :: cs, ss) => do
      let s ← unwrapU ss.head?
      let d ← I.curDataU c s i
      return (some d, (cs, ss.tail))
  fold := fun st b f => miCursorFold I i f st.1 st.2 b
  hint := fun st => (st.1.length, some st.1.length)

/-- `level_indices: Array::from_fn(|i| *level_indices.get_unchecked(i))`
(_multi_union.rs:63-64, _multi_intersection.rs:148). -/
def copyIndices (D : Nat) (li : List Nat) : R (List Nat) := (List.range D).mapM (fun i => getU li i)

/-- multi_map_fold.rs:27-135 over `multi_union(iter)`, with the iterators' own `fold`s
(`arrayvec::IntoIter` is the library's, a list). -/
def foldUnionImpl {S C δ β : Type} (I : Impl S C δ) (sh : List S → Nat × Option Nat) (init : β)
    (f : β → δ → β) : Impl (List S) (MUCursor S C) β where
  N := I.N
  D := I.D
  exact := I.exact
  -- multi_map_fold.rs:42-52, _multi_union.rs:37-54
  data := fun ss index li => do
    let d ← (multiUnionImpl I).data ss index li
    match d with
    | some ds => return some (ds.foldl f init)
    | none => return none
  -- multi_map_fold.rs:55-62, _multi_union.rs:57-67
  dataU := fun ss index li => do
    let li ← copyIndices I.D li
    (muDataIter (fun s => I.data s index li) sh).fold ss init (fun b d => .ok (f b d))
  new := (multiUnionImpl I).new
  select := (multiUnionImpl I).select
  selectU := (multiUnionImpl I).selectU
  -- multi_map_fold.rs:114-124, _multi_union.rs:225-243
  curData := fun c _ i => do
    if I.D = 1 then .error .panic
    else
      let ne ← unwrapU c.lvls.getLast?
      if ne.isEmpty then return none
      else
        let b ← (muCursorIter I c.cursors i).fold ne init (fun b d => .ok (f b d))
        return some b
  -- multi_map_fold.rs:127-134, _multi_union.rs:246-250
  curDataU := fun c _ i => do
    if I.D = 1 then .error .panic
    else
      let ne ← unwrapU c.lvls.getLast?
      if ne.isEmpty then .error .ub
      else (muCursorIter I c.cursors i).fold ne init (fun b d => .ok (f b d))

/-- multi_map_fold.rs:27-135 over `multi_intersection(iter)`, with the iterators' own `fold`s. -/
def foldInterImpl {S C δ β : Type} (I : Impl S C δ) (sh : List S → Nat × Option Nat) (init : β)
    (f : β → δ → β) : Impl (List S) (MICursor C) β where
  N := I.N
  D := I.D
  exact := false
  data := fun ss index li => do
    let d ← (multiInterImpl I).data ss index li
    match d with
    | some ds => return some (ds.foldl f init)
    | none => return none
  -- multi_map_fold.rs:55-62, _multi_intersection.rs:143-151
  dataU := fun ss index li => do
    let li ← copyIndices I.D li
    (miDataIter (fun s => I.dataU s index li) sh).fold ss init (fun b d => .ok (f b d))
  new := (multiInterImpl I).new
  select := (multiInterImpl I).select
  selectU := (multiInterImpl I).selectU
  -- multi_map_fold.rs:114-124, _multi_intersection.rs:431-439
  curData := fun c ss i => do
    let b ← getBit c.terminalMask i
    if !b then return none
    else
      let b ← (miCursorIter I i).fold (c.cursors, ss) init (fun b d => .ok (f b d))
      return some b
  -- multi_map_fold.rs:127-134, _multi_intersection.rs:442-450
  curDataU := fun c ss i =>
    (miCursorIter I i).fold (c.cursors, ss) init (fun b d => .ok (f b d))

/-! ## Specification -/

/-- From the state `st` the iterator behaves as one over the list `ds`: after any number `m` of calls
of `next` the answers were `ds` in order and then `None` for ever; the size hint bounds what is left;
`fold` then folds exactly what is left. -/
def ValIter.Yields {σ δ : Type} (V : ValIter σ δ) (st : σ) (ds : List δ) : Prop :=
  ∀ m, ∃ st', V.calls m st = .ok ((List.range m).map (fun j => ds[j]?), st') ∧
    (V.hint st').1 ≤ ds.length - m ∧ (∀ h, (V.hint st').2 = some h → ds.length - m ≤ h) ∧
    ∀ (β : Type) (b : β) (f : β → δ → R β), V.fold st' b f = (ds.drop m).foldlM f b

/-- In addition the size hint is exact all the time (`ExactSizeIterator`). -/
def ValIter.ExactLen {σ δ : Type} (V : ValIter σ δ) (st : σ) (n : Nat) : Prop :=
  ∀ m as st', V.calls m st = .ok (as, st') → V.hint st' = (n - m, some (n - m))

/-! ## Proofs -/

/-- An invariant kept by `next`. -/
theorem ValIter.yields_of {σ δ : Type} {V : ValIter σ δ} (P : σ → List δ → Prop)
    (hnil : ∀ st, P st [] → ∃ st', V.next st = .ok (none, st') ∧ P st' [])
    (hcons : ∀ st d ds, P st (d :: ds) → ∃ st', V.next st = .ok (some d, st') ∧ P st' ds)
    (hhint : ∀ st ds, P st ds → (V.hint st).1 ≤ ds.length ∧
      ∀ h, (V.hint st).2 = some h → ds.length ≤ h)
    (hfold : ∀ st ds, P st ds → ∀ (β : Type) (b : β) (f : β → δ → R β),
      V.fold st b f = ds.foldlM f b) {st : σ} {ds : List δ} (h : P st ds) : V.Yields st ds := by
  intro m
  suffices ∃ st', V.calls m st = .ok ((List.range m).map (fun j => ds[j]?), st') ∧
      P st' (ds.drop m) by
    obtain ⟨st', e, hP⟩ := this
    have hh := hhint _ _ hP
    rw [List.length_drop] at hh
    exact ⟨st', e, hh.1, hh.2, hfold _ _ hP⟩
  induction m generalizing st ds with
  | zero => exact ⟨st, rfl, by simpa using h⟩
  | succ m ih =>
    cases ds with
    | nil =>
      obtain ⟨s1, e1, h1⟩ := hnil st h
      obtain ⟨s2, e2, h2⟩ := ih h1
      refine ⟨s2, ?_, by simpa using h2⟩
      simp only [ValIter.calls, e1, bind_ok, e2, pure_eq_ok, List.range_succ_eq_map,
        List.map_cons, List.map_map, List.getElem?_nil, Function.comp_def]
    | cons d ds =>
      obtain ⟨s1, e1, h1⟩ := hcons st d ds h
      obtain ⟨s2, e2, h2⟩ := ih h1
      refine ⟨s2, ?_, by simpa using h2⟩
      simp only [ValIter.calls, e1, bind_ok, e2, pure_eq_ok, List.range_succ_eq_map,
        List.map_cons, List.map_map, Function.comp_def, List.getElem?_cons_zero,
        List.getElem?_cons_succ]

/-- What `findMap` and `foldSome` range over. -/
inductive Kept {S δ : Type} (g : S → R (Option δ)) : List S → List δ → Prop
  | nil : Kept g [] []
  | skip {s ss ds} : g s = .ok none → Kept g ss ds → Kept g (s :: ss) ds
  | keep {s ss d ds} : g s = .ok (some d) → Kept g ss ds → Kept g (s :: ss) (d :: ds)

theorem Kept.length_le {S δ : Type} {g : S → R (Option δ)} {ss : List S} {ds : List δ}
    (h : Kept g ss ds) : ds.length ≤ ss.length := by
  induction h with
  | nil => simp
  | skip _ _ ih => simp; omega
  | keep _ _ ih => simp; omega

theorem Kept.next_nil {S δ : Type} {g : S → R (Option δ)} {ss : List S} {ds : List δ}
    (h : Kept g ss ds) : ds = [] → findMap g ss = .ok (none, []) := by
  induction h with
  | nil => intro _; rfl
  | skip e _ ih => intro hd; simp only [findMap, e, bind_ok]; exact ih hd
  | keep => intro hd; cases hd

theorem Kept.next_cons {S δ : Type} {g : S → R (Option δ)} {ss : List S} {ds : List δ}
    (h : Kept g ss ds) : ∀ {d ds'}, ds = d :: ds' →
      ∃ ss', findMap g ss = .ok (some d, ss') ∧ Kept g ss' ds' := by
  induction h with
  | nil => intro d ds' h; cases h
  | skip e _ ih =>
    intro d ds' hd
    obtain ⟨ss', e1, e2⟩ := ih hd
    exact ⟨ss', by simp only [findMap, e, bind_ok]; exact e1, e2⟩
  | keep e h _ =>
    intro d ds' hd
    cases hd
    exact ⟨_, by simp only [findMap, e, bind_ok, pure_eq_ok], h⟩

theorem Kept.fold {S δ β : Type} {g : S → R (Option δ)} {ss : List S} {ds : List δ}
    (h : Kept g ss ds) (f : β → δ → R β) (b : β) : foldSome g f ss b = ds.foldlM f b := by
  induction h generalizing b with
  | nil => rfl
  | skip e _ ih => simp only [foldSome, e, bind_ok]; exact ih b
  | keep e _ ih =>
    simp only [foldSome, e, bind_ok, List.foldlM_cons]
    cases hf : f b _ with
    | error x => rfl
    | ok b' => simp only [bind_ok]; exact ih b'

theorem kept_of_gatherU {S δ : Type} {g : S → R (Option δ)} {ss : List S} {ds : List δ}
    (h : muGatherU g ss = .ok ds) : Kept g ss ds := by
  induction ss generalizing ds with
  | nil => cases h; exact .nil
  | cons s ss ih =>
    simp only [muGatherU] at h
    cases e : g s with
    | error x => rw [e] at h; cases h
    | ok d =>
      rw [e] at h
      simp only [bind_ok] at h
      cases e2 : muGatherU g ss with
      | error x => rw [e2] at h; cases h
      | ok rest =>
        rw [e2] at h
        simp only [bind_ok] at h
        cases d with
        | none => cases h; exact .skip e (ih e2)
        | some d => cases h; exact .keep e (ih e2)

theorem cursorData_eq_gatherU {S C δ : Type} (I : Impl S C δ) (cs : List (S × C)) (i : Nat)
    (ks : List Nat) : muCursorData I cs i ks = muGatherU (fun k => do
      let (s, c) ← getU cs k
      I.curData c s i) ks := by
  induction ks with
  | nil => rfl
  | cons k ks ih =>
    simp only [muCursorData, muGatherU, ih]
    cases getU cs k <;> rfl

theorem muDataIter_yields {S δ : Type} {data : S → R (Option δ)} {sh : List S → Nat × Option Nat}
    (hsh : ∀ l h, (sh l).2 = some h → l.length ≤ h) {ss : List S} {ds : List δ}
    (h : muGatherU data ss = .ok ds) : (muDataIter data sh).Yields ss ds := by
  refine ValIter.yields_of (fun ss ds => Kept data ss ds) ?_ ?_ ?_ ?_ (kept_of_gatherU h)
  · exact fun st h => ⟨[], h.next_nil rfl, .nil⟩
  · exact fun st d ds h => h.next_cons rfl
  · exact fun st ds h => ⟨Nat.zero_le _, fun n hn => Nat.le_trans h.length_le (hsh _ _ hn)⟩
  · exact fun st ds h β b f => h.fold f b

theorem muCursorIter_yields {S C δ : Type} {I : Impl S C δ} {cs : List (S × C)} {i : Nat}
    {ks : List Nat} {ds : List δ} (h : muCursorData I cs i ks = .ok ds) :
    (muCursorIter I cs i).Yields ks ds := by
  rw [cursorData_eq_gatherU] at h
  refine ValIter.yields_of (fun ks ds => Kept _ ks ds) ?_ ?_ ?_ ?_ (kept_of_gatherU h)
  · exact fun st h => ⟨[], h.next_nil rfl, .nil⟩
  · exact fun st d ds h => h.next_cons rfl
  · intro st ds h
    refine ⟨Nat.zero_le _, fun n hn => ?_⟩
    simp only [muCursorIter, Option.some.injEq] at hn
    rw [← hn]; exact h.length_le
  · exact fun st ds h β b f => h.fold f b

theorem miGatherU_length {S δ : Type} {dataU : S → R δ} {ss : List S} {ds : List δ}
    (h : miGatherU dataU ss = .ok ds) : ds.length = ss.length := by
  induction ss generalizing ds with
  | nil => cases h; rfl
  | cons s ss ih =>
    simp only [miGatherU] at h
    cases e : dataU s with
    | error x => rw [e] at h; cases h
    | ok d =>
      rw [e] at h
      simp only [bind_ok] at h
      cases e2 : miGatherU dataU ss with
      | error x => rw [e2] at h; cases h
      | ok rest => rw [e2] at h; cases h; simp [ih e2]

theorem miGatherU_cons {S δ : Type} {dataU : S → R δ} {s : S} {ss : List S} {ds : List δ}
    (h : miGatherU dataU (s :: ss) = .ok ds) :
    ∃ d ds', ds = d :: ds' ∧ dataU s = .ok d ∧ miGatherU dataU ss = .ok ds' := by
  simp only [miGatherU] at h
  cases e : dataU s with
  | error x => rw [e] at h; cases h
  | ok d =>
    rw [e] at h
    simp only [bind_ok] at h
    cases e2 : miGatherU dataU ss with
    | error x => rw [e2] at h; cases h
    | ok rest => rw [e2] at h; cases h; exact ⟨d, rest, rfl, rfl, rfl⟩

theorem miDataIter_fold {S δ β : Type} {dataU : S → R δ} {sh : List S → Nat × Option Nat}
    {ss : List S} {ds : List δ} (h : miGatherU dataU ss = .ok ds) (b : β) (f : β → δ → R β) :
    (miDataIter dataU sh).fold ss b f = ds.foldlM f b := by
  show ss.foldlM _ b = _
  induction ss generalizing ds b with
  | nil => cases h; rfl
  | cons s ss ih =>
    obtain ⟨d, ds', rfl, e1, e2⟩ := miGatherU_cons h
    simp only [List.foldlM_cons, e1, bind_ok]
    cases f b d with
    | error x => rfl
    | ok b' => simp only [bind_ok]; exact ih e2 b'

theorem miDataIter_yields {S δ : Type} {dataU : S → R δ} {sh : List S → Nat × Option Nat}
    (hsh : ∀ l, (sh l).1 ≤ l.length ∧ ∀ h, (sh l).2 = some h → l.length ≤ h) {ss : List S}
    {ds : List δ} (h : miGatherU dataU ss = .ok ds) : (miDataIter dataU sh).Yields ss ds := by
  refine ValIter.yields_of (fun ss ds => miGatherU dataU ss = .ok ds) ?_ ?_ ?_ ?_ h
  · intro st h
    have := miGatherU_length h
    cases st with
    | nil => exact ⟨[], rfl, rfl⟩
    | cons s st => simp at this
  · intro st d ds h
    cases st with
    | nil => cases h
    | cons s st =>
      obtain ⟨d', ds', he, e1, e2⟩ := miGatherU_cons h
      cases he
      exact ⟨st, by simp only [miDataIter, e1, bind_ok, pure_eq_ok], e2⟩
  · intro st ds h
    rw [miGatherU_length h]; exact hsh st
  · exact fun st ds h β b f => miDataIter_fold h b f

theorem miCursorData_cons {S C δ : Type} {I : Impl S C δ} {i : Nat} {c : C} {cs : List C}
    {ss : List S} {ds : List δ} (h : miCursorData I i (c :: cs) ss = .ok ds) :
    ∃ s d ds', ss.head? = some s ∧ ds = d :: ds' ∧ I.curDataU c s i = .ok d ∧
      miCursorData I i cs ss.tail = .ok ds' := by
  simp only [miCursorData] at h
  cases e0 : ss.head? with
  | none => rw [e0] at h; cases h
  | some s =>
    rw [e0] at h
    simp only [unwrapU, bind_ok] at h
    cases e : I.curDataU c s i with
    | error x => rw [e] at h; cases h
    | ok d =>
      rw [e] at h
      simp only [bind_ok] at h
      cases e2 : miCursorData I i cs ss.tail with
      | error x => rw [e2] at h; cases h
      | ok rest => rw [e2] at h; cases h; exact ⟨s, d, rest, rfl, rfl, e, rfl⟩

theorem miCursorData_length {S C δ : Type} {I : Impl S C δ} {i : Nat} {cs : List C}
    {ss : List S} {ds : List δ} (h : miCursorData I i cs ss = .ok ds) : ds.length = cs.length := by
  induction cs generalizing ss ds with
  | nil => cases h; rfl
  | cons c cs ih =>
    obtain ⟨s, d, ds', -, rfl, -, e⟩ := miCursorData_cons h
    simp [ih e]

theorem miCursorFold_eq {S C δ β : Type} {I : Impl S C δ} {i : Nat} {cs : List C} {ss : List S}
    {ds : List δ} (h : miCursorData I i cs ss = .ok ds) (f : β → δ → R β) (b : β) :
    miCursorFold I i f cs ss b = ds.foldlM f b := by
  induction cs generalizing ss ds b with
  | nil => cases h; rfl
  | cons c cs ih =>
    obtain ⟨s, d, ds', e0, rfl, e1, e2⟩ := miCursorData_cons h
    simp only [miCursorFold, e0, unwrapU, bind_ok, e1, List.foldlM_cons]
    cases f b d with
    | error x => rfl
    | ok b' => simp only [bind_ok]; exact ih e2 b'

theorem miCursorIter_yields {S C δ : Type} {I : Impl S C δ} {i : Nat} {cs : List C} {ss : List S}
    {ds : List δ} (h : miCursorData I i cs ss = .ok ds) :
    (miCursorIter I i).Yields (cs, ss) ds := by
  refine ValIter.yields_of (fun st ds => miCursorData I i st.1 st.2 = .ok ds) ?_ ?_ ?_ ?_ h
  · rintro ⟨cs, ss⟩ h
    have := miCursorData_length h
    cases cs with
    | nil => exact ⟨_, rfl, rfl⟩
    | cons c cs => simp at this
  · rintro ⟨cs, ss⟩ d ds h
    cases cs with
    | nil => cases h
    | cons c cs =>
      obtain ⟨s, d', ds', e0, he, e1, e2⟩ := miCursorData_cons h
      cases he
      exact ⟨(cs, ss.tail), by simp only [miCursorIter, e0, unwrapU, e1, bind_ok, pure_eq_ok], e2⟩
  · rintro ⟨cs, ss⟩ ds h
    rw [miCursorData_length h]
    exact ⟨Nat.le_refl _, fun n hn => by cases hn; exact Nat.le_refl _⟩
  · rintro ⟨cs, ss⟩ ds h β b f
    exact miCursorFold_eq h f b

/-- The size hint of the intersection's cursor iterator is exact. -/
theorem miCursorIter_exact {S C δ : Type} {I : Impl S C δ} {i : Nat} {cs : List C} {ss : List S} :
    (miCursorIter I i).ExactLen (cs, ss) cs.length := by
  intro m
  induction m generalizing cs ss with
  | zero => intro as st' h; cases h; rfl
  | succ m ih =>
    intro as st' h
    simp only [ValIter.calls] at h
    cases cs with
    | nil =>
      simp only [miCursorIter, bind_ok] at h
      cases e : (miCursorIter I i).calls m ([], ss) with
      | error x => erw [e] at h; cases h
      | ok r =>
        erw [e] at h
        cases h
        have := ih r.1 r.2 e
        simpa using this
    | cons c cs =>
      cases e0 : ss.head? with
      | none => simp only [miCursorIter, e0, unwrapU, bind_err] at h; cases h
      | some s =>
        cases e1 : I.curDataU c s i with
        | error x => simp only [miCursorIter, e0, unwrapU, bind_ok, e1, bind_err] at h; cases h
        | ok d =>
          simp only [miCursorIter, e0, unwrapU, bind_ok, e1, pure_eq_ok] at h
          cases e : (miCursorIter I i).calls m (cs, ss.tail) with
          | error x => erw [e] at h; cases h
          | ok r =>
            erw [e] at h
            cases h
            have := ih r.1 r.2 e
            simpa using this

/-- The size hint of the intersection's unchecked iterator is exact if the one of the source is. -/
theorem miDataIter_exact {S δ : Type} {dataU : S → R δ} {sh : List S → Nat × Option Nat}
    (hsh : ∀ l, sh l = (l.length, some l.length)) {ss : List S} :
    (miDataIter dataU sh).ExactLen ss ss.length := by
  intro m
  induction m generalizing ss with
  | zero => intro as st' h; cases h; exact hsh ss
  | succ m ih =>
    intro as st' h
    simp only [ValIter.calls] at h
    cases ss with
    | nil =>
      simp only [miDataIter, bind_ok] at h
      cases e : (miDataIter dataU sh).calls m [] with
      | error x => erw [e] at h; cases h
      | ok r =>
        erw [e] at h
        cases h
        have := ih r.1 r.2 e
        simpa using this
    | cons s ss =>
      cases e1 : dataU s with
      | error x => simp only [miDataIter, e1, bind_err] at h; cases h
      | ok d =>
        simp only [miDataIter, e1, bind_ok, pure_eq_ok] at h
        cases e : (miDataIter dataU sh).calls m ss with
        | error x => erw [e] at h; cases h
        | ok r =>
          erw [e] at h
          cases h
          have := ih r.1 r.2 e
          simpa using this

/-! ## The literal `multi_map_fold` -/

theorem copyIndices_eq {D : Nat} {li : List Nat} (h : li.length = D) : copyIndices D li = .ok li := by
  subst h
  unfold copyIndices
  induction li with
  | nil => rfl
  | cons a li ih =>
    rw [List.length_cons, List.range_succ_eq_map, List.mapM_cons, List.mapM_map]
    have e : (fun i => getU (a :: li) i) ∘ Nat.succ = fun i => getU li i := by
      funext i; simp [getU]
    rw [e, ih]; rfl

theorem foldSome_pure {S δ β : Type} (g : S → R (Option δ)) (f : β → δ → β) (ss : List S) (b : β) :
    foldSome g (fun b d => .ok (f b d)) ss b =
      (do let ds ← muGatherU g ss; return ds.foldl f b) := by
  induction ss generalizing b with
  | nil => rfl
  | cons s ss ih =>
    simp only [foldSome, muGatherU]
    cases g s with
    | error x => rfl
    | ok d =>
      cases d with
      | none =>
        simp only [bind_ok, ih]
        cases muGatherU g ss <;> rfl
      | some d =>
        simp only [bind_ok, ih]
        cases muGatherU g ss <;> rfl

theorem miFold_pure {S δ β : Type} (g : S → R δ) (f : β → δ → β) (ss : List S) (b : β) :
    ss.foldlM (fun b s => do let d ← g s; (Except.ok (f b d) : R β)) b =
      (do let ds ← miGatherU g ss; return ds.foldl f b) := by
  induction ss generalizing b with
  | nil => rfl
  | cons s ss ih =>
    simp only [List.foldlM_cons, miGatherU]
    cases g s with
    | error x => rfl
    | ok d =>
      simp only [bind_ok, ih]
      cases miGatherU g ss <;> rfl

theorem miCursorFold_pure {S C δ β : Type} (I : Impl S C δ) (i : Nat) (f : β → δ → β)
    (cs : List C) (ss : List S) (b : β) :
    miCursorFold I i (fun b d => .ok (f b d)) cs ss b =
      (do let ds ← miCursorData I i cs ss; return ds.foldl f b) := by
  induction cs generalizing ss b with
  | nil => rfl
  | cons c cs ih =>
    simp only [miCursorFold, miCursorData]
    cases unwrapU ss.head? with
    | error x => rfl
    | ok s =>
      simp only [bind_ok]
      cases I.curDataU c s i with
      | error x => rfl
      | ok d =>
        simp only [bind_ok, ih]
        cases miCursorData I i cs ss.tail <;> rfl

/-- A tree implementation that differs in `data_unchecked` only for ill-sized index arrays. -/
theorem Lawful.congr_dataU {S C δ : Type} {I : Impl S C δ} {s : S} {T : TreeSpec δ}
    {K : CursorRel C} (h : Lawful I s T K) {g : S → Nat → List Nat → R δ}
    (hg : ∀ k li, li.length = I.D → g s k li = I.dataU s k li) :
    Lawful { I with dataU := g } s T K where
  cfg := h.cfg
  wf := h.wf
  data_eq := h.data_eq
  dataU_eq p d hp hl hc := (hg _ _ hl).trans (h.dataU_eq p d hp hl hc)
  new_ok := h.new_ok
  pos_inv := h.pos_inv
  posC_pos := h.posC_pos
  pos_take := h.pos_take
  select_root := h.select_root
  selectU_root := h.selectU_root
  select_node := h.select_node
  selectU_node := h.selectU_node
  curDataU_eq := h.curDataU_eq

theorem foldUnionImpl_eq {S C δ β : Type} (I : Impl S C δ) (sh : List S → Nat × Option Nat)
    (init : β) (f : β → δ → β) :
    foldUnionImpl I sh init f = { foldImpl (multiUnionImpl I) init f with
      dataU := (foldUnionImpl I sh init f).dataU } := by
  have e1 : (foldUnionImpl I sh init f).curData = (foldImpl (multiUnionImpl I) init f).curData := by
    funext c ss i
    simp only [foldUnionImpl, foldImpl, multiUnionImpl, muCurData, muCursorIter, foldSome_pure,
      cursorData_eq_gatherU]
    by_cases hD : I.D = 1
    · simp only [if_pos hD]; rfl
    · simp only [if_neg hD]
      cases unwrapU c.lvls.getLast? with
      | error x => rfl
      | ok ne =>
        simp only [bind_ok]
        cases ne.isEmpty with
        | true => rfl
        | false =>
          simp only [Bool.false_eq_true, if_false]
          cases muGatherU (fun k => do
            let (s, c) ← getU c.cursors k
            I.curData c s i) ne <;> rfl
  have e2 : (foldUnionImpl I sh init f).curDataU = (foldImpl (multiUnionImpl I) init f).curDataU := by
    funext c ss i
    simp only [foldUnionImpl, foldImpl, multiUnionImpl, muCurData, muCursorIter, foldSome_pure,
      cursorData_eq_gatherU]
    by_cases hD : I.D = 1
    · simp only [if_pos hD]; rfl
    · simp only [if_neg hD]
      cases unwrapU c.lvls.getLast? with
      | error x => rfl
      | ok ne =>
        simp only [bind_ok]
        cases ne.isEmpty with
        | true => rfl
        | false =>
          simp only [Bool.false_eq_true, if_false]
          cases muGatherU (fun k => do
            let (s, c) ← getU c.cursors k
            I.curData c s i) ne <;> rfl
  simp only [← e1, ← e2]
  rfl

theorem foldInterImpl_eq {S C δ β : Type} (I : Impl S C δ) (sh : List S → Nat × Option Nat)
    (init : β) (f : β → δ → β) :
    foldInterImpl I sh init f = { foldImpl (multiInterImpl I) init f with
      dataU := (foldInterImpl I sh init f).dataU } := by
  have e1 : (foldInterImpl I sh init f).curData = (foldImpl (multiInterImpl I) init f).curData := by
    funext c ss i
    simp only [foldInterImpl, foldImpl, multiInterImpl, miCursorIter, miCursorFold_pure]
    cases getBit c.terminalMask i with
    | error x => rfl
    | ok b =>
      simp only [bind_ok]
      cases b with
      | false => rfl
      | true =>
        simp only [Bool.not_true, Bool.false_eq_true, if_false]
        cases miCursorData I i c.cursors ss <;> rfl
  have e2 : (foldInterImpl I sh init f).curDataU = (foldImpl (multiInterImpl I) init f).curDataU := by
    funext c ss i
    simp only [foldInterImpl, foldImpl, multiInterImpl, miCursorIter, miCursorFold_pure]
  simp only [← e1, ← e2]
  rfl

theorem foldUnion_dataU {S C δ β : Type} (I : Impl S C δ) (sh : List S → Nat × Option Nat)
    (init : β) (f : β → δ → β) (ss : List S) (k : Nat) {li : List Nat} (h : li.length = I.D) :
    (foldUnionImpl I sh init f).dataU ss k li = (foldImpl (multiUnionImpl I) init f).dataU ss k li := by
  simp only [foldUnionImpl, foldImpl, multiUnionImpl, copyIndices_eq h, bind_ok, muDataIter,
    foldSome_pure]

theorem foldInter_dataU {S C δ β : Type} (I : Impl S C δ) (sh : List S → Nat × Option Nat)
    (init : β) (f : β → δ → β) (ss : List S) (k : Nat) {li : List Nat} (h : li.length = I.D) :
    (foldInterImpl I sh init f).dataU ss k li = (foldImpl (multiInterImpl I) init f).dataU ss k li := by
  simp only [foldInterImpl, foldImpl, multiInterImpl, copyIndices_eq h, bind_ok, miDataIter,
    miFold_pure]

end Hibit
