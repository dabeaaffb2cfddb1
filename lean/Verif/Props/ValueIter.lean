import Verif.Ops.ValueIter
import Verif.Props.Ops
/-!
# Property C56: the iterators of values handed out by `multi_union` and `multi_intersection`

`Yields V st ds` (`Verif/Ops/ValueIter.lean`): from `st` on the iterator answers `ds` in order and then
`None` for ever, its size hint bounds what is left after any number of `next` calls, and `fold` at any
moment folds exactly what is left.
`sh` is the `size_hint` of the iterator over the source trees.
-/
namespace Hibit.Props
open Hibit

variable {S C δ : Type} {I : Impl S C δ} {ss : List S}

/-- The contract of `Iterator::size_hint`. -/
def HintOk (sh : List S → Nat × Option Nat) : Prop :=
  ∀ l, (sh l).1 ≤ l.length ∧ ∀ h, (sh l).2 = some h → l.length ≤ h

/-- **C56**, `get_unchecked` of `multi_union`, at a present index. -/
theorem contract_union_unchecked {content : S → Nat → Option δ} (hcfg : ValidCfg I.N I.D) (hD : 2 ≤ I.D)
    (hcap : ss.length ≤ 32) (h : ∀ s ∈ ss, IsTreeC I s (content s)) {sh : List S → Nat × Option Nat}
    (hsh : HintOk sh) {k : Nat} (hk : k < width I.N ^ I.D) (hk' : k < 2 ^ 64 - 1) {vs : List δ}
    (hv : multiUnionMap (ss.map content) k = some vs) :
    ∃ li, levelIndices I.N I.D k = .ok li ∧ copyIndices I.D li = .ok li ∧
      (muDataIter (fun s => I.data s k li) sh).Yields ss vs := by
  have hg := (contract_multi_union hcfg hD hcap h).1 k hk hk'
  rw [hv] at hg
  have hu := contract_get_unchecked (multiUnion_isTree hcfg hD hcap h) hg
  have el : levelIndices I.N I.D k = .ok (path (width I.N) I.D k) := levelIndices_eq hcfg k
  refine ⟨_, el, copyIndices_eq (path_length _ _ _), muDataIter_yields (fun l => (hsh l).2) ?_⟩
  unfold Impl.getU at hu
  have el' : levelIndices (multiUnionImpl I).N (multiUnionImpl I).D k =
    .ok (path (width I.N) I.D k) := el
  rw [el'] at hu
  exact hu

/-- **C56**, `get_unchecked` of `multi_intersection`, at a present index. With an exact source hint
(`slice::Iter`) the hint stays exact. -/
theorem contract_intersection_unchecked {content : S → Nat → Option δ} (hne : ss ≠ [])
    (hcap : ss.length ≤ 32) (h : ∀ s ∈ ss, IsTree I s (content s)) {sh : List S → Nat × Option Nat}
    (hsh : HintOk sh) {k : Nat} (hk : k < width I.N ^ I.D) (hk' : k < 2 ^ 64 - 1) {vs : List δ}
    (hv : multiInterMap (ss.map content) k = some vs) :
    ∃ li, levelIndices I.N I.D k = .ok li ∧ copyIndices I.D li = .ok li ∧
      (miDataIter (fun s => I.dataU s k li) sh).Yields ss vs ∧
      ((∀ l, sh l = (l.length, some l.length)) →
        (miDataIter (fun s => I.dataU s k li) sh).ExactLen ss vs.length) := by
  have hg := (contract_multi_intersection hne hcap h).1 k hk hk'
  rw [hv] at hg
  have hu := contract_get_unchecked (multiInter_isTree hne hcap h).isTree hg
  have hcfg : ValidCfg I.N I.D := by
    obtain ⟨s, hs⟩ := List.exists_mem_of_ne_nil ss hne
    obtain ⟨_, _, L, _⟩ := h s hs
    exact L.cfg
  have el : levelIndices I.N I.D k = .ok (path (width I.N) I.D k) := levelIndices_eq hcfg k
  unfold Impl.getU at hu
  have el' : levelIndices (multiInterImpl I).N (multiInterImpl I).D k =
    .ok (path (width I.N) I.D k) := el
  rw [el'] at hu
  have hu : miGatherU (fun s => I.dataU s k (path (width I.N) I.D k)) ss = .ok vs := hu
  refine ⟨_, el, copyIndices_eq (path_length _ _ _), miDataIter_yields hsh hu, fun hx => ?_⟩
  rw [miGatherU_length hu]
  exact miDataIter_exact hx

/-- **C56**, the items of `iter()` (and cursor data) of `multi_union`: whenever the cursor's `data` or
`data_unchecked` answers the values `vs`, the iterator it returns yields `vs`. -/
theorem C56_union_cursor (c : MUCursor S C) (i : Nat) (vs : List δ)
    (h : (multiUnionImpl I).curData c ss i = .ok (some vs) ∨
      (multiUnionImpl I).curDataU c ss i = .ok vs) :
    ∃ ne, c.lvls.getLast? = some ne ∧ ne ≠ [] ∧ (muCursorIter I c.cursors i).Yields ne vs := by
  have h : muCurData I c i = .ok (some vs) := by
    rcases h with h | h
    · exact h
    · have h : (do let d ← muCurData I c i; unwrapU d) = .ok vs := h
      cases e : muCurData I c i with
      | error x => rw [e] at h; cases h
      | ok d =>
        rw [e] at h
        cases d with
        | none => cases h
        | some d => cases h; rfl
  unfold muCurData at h
  by_cases hD : I.D = 1
  · rw [if_pos hD] at h; cases h
  rw [if_neg hD] at h
  cases e : c.lvls.getLast? with
  | none => rw [e] at h; cases h
  | some ne =>
    rw [e] at h
    simp only [unwrapU, bind_ok] at h
    cases ne with
    | nil => cases h
    | cons a ne =>
      simp only [List.isEmpty_cons, Bool.false_eq_true, if_false] at h
      cases e2 : muCursorData I c.cursors i (a :: ne) with
      | error x => rw [e2] at h; cases h
      | ok ds =>
        rw [e2] at h
        cases h
        exact ⟨a :: ne, rfl, by simp, muCursorIter_yields e2⟩

/-- The item of key 5 in an iteration over `multi_union([exD, empty, exD])`. -/
example : (do
    let e ← Dense.default Nat 2
    let U := multiUnionImpl (Dense.impl Nat 2)
    let c ← U.new [exD, e, exD]
    let r ← runMoves U [exD, e, exD] c [⟨true, 0, 0⟩, ⟨true, 1, 0⟩]
    let ne ← unwrapU r.2.lvls.getLast?
    let as ← (muCursorIter (Dense.impl Nat 2) r.2.cursors 5).calls 4 ne
    return (← U.curData r.2 [exD, e, exD] 5, as.1) : R _) =
    .ok (some [56, 56], [some 56, some 56, none, none]) := by decide +kernel

/-- **C56**, the items of `iter()` (and cursor data) of `multi_intersection`; here the size hint is
exact. -/
theorem C56_intersection_cursor (c : MICursor C) (i : Nat) (vs : List δ)
    (h : (multiInterImpl I).curData c ss i = .ok (some vs) ∨
      (multiInterImpl I).curDataU c ss i = .ok vs) :
    (miCursorIter I i).Yields (c.cursors, ss) vs ∧
    (miCursorIter I i).ExactLen (c.cursors, ss) vs.length := by
  have h : miCursorData I i c.cursors ss = .ok vs := by
    rcases h with h | h
    · simp only [multiInterImpl] at h
      cases e : getBit c.terminalMask i with
      | error x => rw [e] at h; cases h
      | ok b =>
        rw [e] at h
        simp only [bind_ok] at h
        cases b with
        | false => cases h
        | true =>
          simp only [Bool.not_true, Bool.false_eq_true, if_false] at h
          cases e2 : miCursorData I i c.cursors ss with
          | error x => rw [e2] at h; cases h
          | ok ds => rw [e2] at h; cases h; rfl
    · exact h
  refine ⟨miCursorIter_yields h, ?_⟩
  rw [miCursorData_length h]
  exact miCursorIter_exact

example : (do
    let U := multiInterImpl (Dense.impl Nat 2)
    let c ← U.new [exD, exD]
    let r ← runMoves U [exD, exD] c [⟨true, 0, 0⟩, ⟨true, 1, 0⟩]
    let V := miCursorIter (Dense.impl Nat 2) 5
    let as ← V.calls 3 (r.2.cursors, [exD, exD])
    return (← U.curData r.2 [exD, exD] 5, as.1, V.hint (r.2.cursors, [exD, exD])) : R _) =
    .ok (some [56, 56], [some 56, some 56, none], (2, some 2)) := by decide +kernel

/-- **C56** for `multi_map_fold` over `multi_union`: with the iterators' own `fold` methods the result
is the left fold of the present values, in `get` and in iteration. -/
theorem contract_fold_union {β : Type} {content : S → Nat → Option δ} (hcfg : ValidCfg I.N I.D)
    (hD : 2 ≤ I.D) (hcap : ss.length ≤ 32) (h : ∀ s ∈ ss, IsTreeC I s (content s))
    (sh : List S → Nat × Option Nat) (init : β) (f : β → δ → β) :
    IsTree (foldUnionImpl I sh init f) ss
      (fun i => (multiUnionMap (ss.map content) i).map (fun vs => vs.foldl f init)) := by
  have hm := map_isTree (fun vs : List δ => vs.foldl f init) (multiUnion_isTree hcfg hD hcap h)
  rw [← foldImpl_eq] at hm
  obtain ⟨T, K, L, e⟩ := hm
  rw [foldUnionImpl_eq]
  exact ⟨T, K, L.congr_dataU (fun k li hl => foldUnion_dataU I sh init f ss k hl), e⟩

/-- **C56** for `multi_map_fold` over `multi_intersection`. -/
theorem contract_fold_intersection {β : Type} {content : S → Nat → Option δ} (hne : ss ≠ [])
    (hcap : ss.length ≤ 32) (h : ∀ s ∈ ss, IsTree I s (content s))
    (sh : List S → Nat × Option Nat) (init : β) (f : β → δ → β) :
    IsTree (foldInterImpl I sh init f) ss
      (fun i => (multiInterMap (ss.map content) i).map (fun vs => vs.foldl f init)) := by
  have hm := map_isTree (fun vs : List δ => vs.foldl f init) (multiInter_isTree hne hcap h).isTree
  rw [← foldImpl_eq] at hm
  obtain ⟨T, K, L, e⟩ := hm
  rw [foldInterImpl_eq]
  exact ⟨T, K, L.congr_dataU (fun k li hl => foldInter_dataU I sh init f ss k hl), e⟩

/-- **C56** is false for the `ExactSizeIterator` implementation of the iterator `get_unchecked` of
`multi_intersection` returns: it is there for every source iterator, but the hint is the source's. With
a source whose (correct) lower bound is 0, e.g. a `filter`, the two bounds differ, on which
`ExactSizeIterator::len()` panics. -/
theorem C56_fails_exact_size (dataU : S → R δ) (hne : ss ≠ []) :
    ∃ sh : List S → Nat × Option Nat, HintOk sh ∧
      ((miDataIter dataU sh).hint ss).2 ≠ some ((miDataIter dataU sh).hint ss).1 ∧
      ∀ n, ¬ (miDataIter dataU sh).ExactLen ss n := by
  refine ⟨fun l => (0, some l.length), fun l => ⟨Nat.zero_le _, fun h e => by cases e; exact Nat.le_refl _⟩,
    ?_, fun n hx => ?_⟩
  · have : ss.length ≠ 0 := fun h => hne (List.length_eq_zero_iff.1 h)
    simpa [miDataIter] using this
  · have := hx 0 [] ss rfl
    simp only [miDataIter, Nat.sub_zero, Prod.mk.injEq, Option.some.injEq] at this
    exact hne (List.length_eq_zero_iff.1 (by omega))

/-- The hypotheses are met: two trees, index 64 present in both. -/
example : ∃ (t : Dense.DT Nat) (M : Nat → Option Nat) (vs : List Nat),
    (∀ s ∈ [t, t], IsTreeC (Dense.impl Nat 2) s M) ∧
    multiUnionMap ([t, t].map (fun _ => M)) 64 = some vs ∧
    multiInterMap ([t, t].map (fun _ => M)) 64 = some vs ∧ vs = [72, 72] ∧
    HintOk (fun l : List (Dense.DT Nat) => (l.length, some l.length)) := by
  obtain ⟨t, M, h, -, h2, -⟩ := exTree
  refine ⟨t, M, [72, 72], ?_, ?_, ?_, rfl, fun l => ⟨Nat.le_refl _, fun h e => by cases e; exact Nat.le_refl _⟩⟩
  · intro s hs; simp at hs; rw [hs]; exact h
  · simp [multiUnionMap, h2]
  · simp [multiInterMap, h2]

end Hibit.Props
