import Verif.MAlias.Iterate
import Verif.MAlias.Cursor
import Verif.MAlias.Mat
import Verif.MAlias.Repair
import Verif.Props.Trees
import Verif.Props.Limits
/-!
# C90: the cursor of multi_union and Rust's aliasing rules

`MAlias.impl I` is `multi_union` over source trees `I` with every reference its cursor makes to its own fields checked under Stacked
Borrows (`MAlias/Model`): an access through an invalidated pointer is `Err.ub`. `multiUnionImpl I` is the same code without the
borrows (C34).

The property is false: from level 2 on, `select_level_node_unchecked` makes a `&` to the whole slice of per-level lists while it
holds a `&mut` to one of them, and then pushes through the latter.
-/
namespace Hibit.Props
open Hibit

section
variable {S C δ : Type} {I : Impl S C δ}

/-- **C90**, the true part: with source trees of depth at most 2 – any implementation of the traits – an iteration over their
multi-union is, with all borrows checked, the one of C34: no access goes through an invalidated pointer. -/
theorem C90_iterate_partial (hD : I.D ≤ 2) (ss : List S) (fuel n : Nat) :
    (MAlias.impl I).iterRun ss fuel n = (multiUnionImpl I).iterRun ss fuel n := by
  have h := MAlias.iterRun_sim (I := I) (ss := ss) fuel n
  generalize (multiUnionImpl I).iterRun ss fuel n = x at h
  generalize (MAlias.impl I).iterRun ss fuel n = y at h
  rcases h with ⟨h, -⟩ | h
  · omega
  · cases h with
    | ok q => rw [q.1]
    | err => rfl

/-- **C90**, the true part for one call: a cursor in any state, with any borrows on its stacks, selects a node of level 0 or 1 as
the code without borrows does. -/
theorem C90_select_partial {n : Nat} (hn : n ≤ 1) (x : MAlias.Cursor S C) (i : Nat) :
    (MAlias.select I x n i).map (fun r => (r.1, r.2.cur)) = muSelect I x.cur n i := by
  have h := MAlias.select_sim (I := I) (i := i) x n
  generalize muSelect I x.cur n i = p at h
  generalize MAlias.select I x n i = q at h
  rcases h with ⟨h, -⟩ | h
  · omega
  · cases h with
    | ok q => obtain ⟨e1, e2, -⟩ := q; exact congrArg Except.ok (Prod.ext e1.symm e2)
    | err => rfl

/-- **C90** fails at every selection of a non-empty node of level 2 or deeper: undefined behaviour, whatever the cursor's state and
the borrows on its stacks. -/
theorem C90_select_fails {n i j : Nat} {m : Mask} {c : MUCursor S C} (hn : 2 ≤ n) (x : MAlias.Cursor S C)
    (e : muSelect I x.cur n i = .ok (m, c)) (hj : m.bit j = true) : MAlias.select I x n i = .error .ub := by
  have h := MAlias.select_sim (I := I) (i := i) x n
  rw [e] at h
  generalize MAlias.select I x n i = q at h
  rcases h with ⟨-, h⟩ | h
  · exact h
  · cases h with
    | ok q => have := q.2.2 hn j; rw [hj] at this; cases this

/-- Checking the borrows adds no other failure and changes no result, at any depth: an iteration is the one of C34 or undefined
behaviour – and with depth at least 3 it is the one of C34 only as long as that yields nothing. -/
theorem C90_only_ub (ss : List S) (fuel n : Nat) :
    (MAlias.impl I).iterRun ss fuel n = .error .ub ∨
      ((MAlias.impl I).iterRun ss fuel n = (multiUnionImpl I).iterRun ss fuel n ∧
        (3 ≤ I.D → ∀ os, (MAlias.impl I).iterRun ss fuel n = .ok os → ∀ o ∈ os, o = none)) := by
  have h := MAlias.iterRun_sim (I := I) (ss := ss) fuel n
  generalize (multiUnionImpl I).iterRun ss fuel n = x at h
  generalize (MAlias.impl I).iterRun ss fuel n = y at h
  rcases h with ⟨-, h⟩ | h
  · exact .inl h
  · cases h with
    | ok q =>
      refine .inr ⟨by rw [q.1], fun hD os e => ?_⟩
      cases e
      rw [← q.1]
      exact q.2 hD
    | err => exact .inr ⟨rfl, fun _ os e => by cases e⟩

variable {ss : List S} {content : S → Nat → Option δ}

/-- **C90** is false for every tree: the first `next` of the iterator of a multi-union of at most 32 trees of depth at least 3 is
undefined behaviour as soon as the union has an element. -/
theorem C90_fails (hcfg : ValidCfg I.N I.D) (hD : 3 ≤ I.D) (hcap : ss.length ≤ 32) (h : ∀ s ∈ ss, Built true I s (content s))
    (hne : ∃ i, i < width I.N ^ I.D ∧ multiUnionMap (ss.map content) i ≠ none) :
    ∃ F, ∀ fuel, F ≤ fuel → ∀ n, (MAlias.impl I).iterRun ss fuel (n + 1) = .error .ub := by
  obtain ⟨-, F, hF⟩ := contract_multi_union hcfg (by omega) hcap fun s hs => (built_isTree (h s hs)).2 rfl
  refine ⟨F, fun fuel hf n => ?_⟩
  rcases C90_only_ub (I := I) ss fuel (n + 1) with e | ⟨e, h0⟩
  · exact e
  · exfalso
    have e' := hF fuel hf (n + 1)
    rw [← e] at e'
    have := h0 hD _ e' _ (List.mem_map.2 ⟨0, by simp, rfl⟩)
    obtain ⟨i, hi, hv⟩ := hne
    obtain ⟨v, hv⟩ := Option.ne_none_iff_exists'.1 hv
    have hm : (i, v) ∈ listing (width I.N ^ I.D) (multiUnionMap (ss.map content)) := by
      unfold listing
      exact List.mem_filterMap.2 ⟨i, List.mem_range.2 hi, by rw [hv]; rfl⟩
    rw [List.getElem?_eq_none_iff] at this
    have hl := List.length_pos_of_mem hm
    change (listing (width I.N ^ I.D) (multiUnionMap (ss.map content))).length ≤ 0 at this
    omega

/-- **C90**, what remains true at every depth: iterating an empty multi-union of exact trees (all containers, `map` and `union` of
them) makes no violation. -/
theorem C90_empty_partial (hcfg : ValidCfg I.N I.D) (hD : 2 ≤ I.D) (hcap : ss.length ≤ 32)
    (h : ∀ s ∈ ss, Built true I s (content s)) (he : I.exact = true)
    (hno : ∀ i, i < width I.N ^ I.D → multiUnionMap (ss.map content) i = none) {fuel : Nat} (hf : 1 ≤ fuel) (n : Nat) :
    (MAlias.impl I).iterRun ss fuel n = .ok (List.replicate n none) := by
  obtain ⟨T, K, L, hc⟩ := multiUnion_isTree hcfg hD hcap fun s hs => (built_isTree (h s hs)).2 rfl
  obtain ⟨c, e0, hi⟩ := L.new_ok
  obtain ⟨m, c', e1, ml, mb, -⟩ := L.selectU_root c 0 hi rfl
  have hz : ∀ j, m.bit j = false := fun j => by
    rw [mb j]
    cases hb : T.bits [] j with
    | false => rfl
    | true =>
      obtain ⟨q, h1, h2, h3⟩ := (maskSpec L.wf hc).exact he [] j ValidPath.nil (by show 0 < I.D; omega) hb
      have hl : unpath (width I.N) ([] ++ [j] ++ q) < width I.N ^ I.D := h2 ▸ unpath_lt h1
      rw [show (multiUnionImpl I).N = I.N from rfl, hno _ hl] at h3
      cases h3
  have hs := C90_select_partial (I := I) (n := 0) (by omega) ⟨c, ⟨fun _ => [], 0⟩⟩ 0
  rw [show muSelect I c 0 0 = .ok (m, c') from e1] at hs
  cases e2 : MAlias.select I ⟨c, ⟨fun _ => [], 0⟩⟩ 0 0 with
  | error e => rw [e2] at hs; cases hs
  | ok r =>
    rw [e2] at hs
    obtain ⟨m', x⟩ := r
    have hm : m' = m := congrArg (fun r => match r with | Except.ok r => r.1 | .error _ => m') hs
    subst hm
    exact dead_run (I := MAlias.impl I) (cfg_pos hcfg).1 (cfg_pos hcfg).2 (c := ⟨c, ⟨fun _ => [], 0⟩⟩) (c' := x)
      (by show (multiUnionImpl I).new ss >>= _ = _; rw [e0]; rfl) e2 ml hz hf n

/-- **C90**, exactly, for exact trees of depth at least 3: iterating their multi-union is undefined behaviour if and only if the
union has an element. -/
theorem C90_iff (hcfg : ValidCfg I.N I.D) (hD : 3 ≤ I.D) (hcap : ss.length ≤ 32) (h : ∀ s ∈ ss, Built true I s (content s))
    (he : I.exact = true) :
    (∃ F, ∀ fuel, F ≤ fuel → ∀ n, (MAlias.impl I).iterRun ss fuel (n + 1) = .error .ub) ↔
      ∃ i, i < width I.N ^ I.D ∧ multiUnionMap (ss.map content) i ≠ none := by
  refine ⟨fun ⟨F, hF⟩ => Classical.byContradiction fun hn => ?_, C90_fails hcfg hD hcap h⟩
  have hno : ∀ i, i < width I.N ^ I.D → multiUnionMap (ss.map content) i = none := fun i hi =>
    Classical.byContradiction fun hx => hn ⟨i, hi, hx⟩
  have e := C90_empty_partial hcfg (by omega) hcap h he hno (fuel := F + 1) (by omega) 1
  rw [hF (F + 1) (by omega) 0] at e
  cases e

end

/-! ## `map` and the folds over a multi-union -/

section
variable {S C δ ε : Type} {J : Impl S C δ} (f : δ → ε) (s : S)

theorem map_iterLoop : ∀ (fuel : Nat) (st : IterSt C), (mapImpl J f).iterLoop s fuel st = J.iterLoop s fuel st
  | 0, _ => rfl
  | fuel + 1, st => by
    unfold Impl.iterLoop
    simp only [map_iterLoop fuel]
    rfl

theorem map_iterTake (fuel : Nat) : ∀ (n : Nat) (st : IterSt C), (mapImpl J f).iterTake s fuel n st =
    (J.iterTake s fuel n st).map (List.map (Option.map fun p => (p.1, f p.2)))
  | 0, _ => rfl
  | n + 1, st => by
    unfold Impl.iterTake Impl.iterNext
    simp only [map_iterLoop, map_iterTake fuel n]
    cases J.iterLoop s fuel st with
    | error e => rfl
    | ok r =>
      obtain ⟨o, st'⟩ := r
      cases o with
      | none => simp only [bind_ok, pure_eq_ok]; cases J.iterTake s fuel n st' <;> rfl
      | some i =>
        simp only [bind_ok, pure_eq_ok]
        show ((do let d ← J.curDataU st'.cur s i; return f d) >>= _) >>= _ = _
        cases J.curDataU st'.cur s i with
        | error e => rfl
        | ok d =>
          simp only [bind_ok, pure_eq_ok, show (mapImpl J f).N = J.N from rfl, show (mapImpl J f).D = J.D from rfl]
          cases dataBlockIndex J.N J.D st'.lidx i with
          | error e => rfl
          | ok k => simp only [bind_ok]; cases J.iterTake s fuel n st' <;> rfl

/-- Iterating a `map` is iterating its operand, with the function applied to each element. -/
theorem map_iterRun (fuel n : Nat) : (mapImpl J f).iterRun s fuel n =
    (J.iterRun s fuel n).map (List.map (Option.map fun p => (p.1, f p.2))) := by
  unfold Impl.iterRun
  rw [show (mapImpl J f).iterNew s = J.iterNew s from rfl]
  cases J.iterNew s with
  | error e => rfl
  | ok st => exact map_iterTake f s fuel n st

end

section
variable {S C δ ε : Type} {I : Impl S C δ} {ss : List S} {content : S → Nat → Option δ}

/-- **C90** fails through `map` and `multi_map_fold` (a fold `f` of the values) over a multi-union as well. -/
theorem C90_fold_fails (f : List δ → ε) (hcfg : ValidCfg I.N I.D) (hD : 3 ≤ I.D) (hcap : ss.length ≤ 32)
    (h : ∀ s ∈ ss, Built true I s (content s)) (hne : ∃ i, i < width I.N ^ I.D ∧ multiUnionMap (ss.map content) i ≠ none) :
    ∃ F, ∀ fuel, F ≤ fuel → ∀ n, (mapImpl (MAlias.impl I) f).iterRun ss fuel (n + 1) = .error .ub := by
  obtain ⟨F, hF⟩ := C90_fails hcfg hD hcap h hne
  exact ⟨F, fun fuel hf n => by rw [map_iterRun, hF fuel hf n]; rfl⟩

/-- and holds through them up to depth 2. -/
theorem C90_fold_partial (f : List δ → ε) (hD : I.D ≤ 2) (fuel n : Nat) :
    (mapImpl (MAlias.impl I) f).iterRun ss fuel n = (mapImpl (multiUnionImpl I) f).iterRun ss fuel n := by
  rw [map_iterRun, map_iterRun, C90_iterate_partial hD]

/-- **C90** holds of `materialize` of a fold over a multi-union up to depth 2: it gives the tree of C42, C43. -/
theorem C90_materialize_partial (f : List δ → ε) (hD1 : 1 ≤ I.D) (hD : I.D ≤ 2) :
    Dense.materialize (mapImpl (MAlias.impl I) f) ss = Dense.materialize (mapImpl (multiUnionImpl I) f) ss := by
  have h := MAlias.materialize_sim (I := I) (f := f) (ss := ss) hD1
  generalize Dense.materialize (mapImpl (multiUnionImpl I) f) ss = x at h
  generalize Dense.materialize (mapImpl (MAlias.impl I) f) ss = y at h
  rcases h with ⟨h, -⟩ | h
  · omega
  · cases h with
    | ok q => rw [q.1]
    | err => rfl

/-- **C90** fails for `materialize` of a fold over every non-empty multi-union of depth at least 3. -/
theorem C90_materialize_fails (f : List δ → ε) (hcfg : ValidCfg I.N I.D) (hN : I.N = 1) (hD : 3 ≤ I.D) (h9 : I.D ≤ 9)
    (hcap : ss.length ≤ 32) (h : ∀ s ∈ ss, Built true I s (content s))
    (hroom : card (64 ^ I.D) (fun i => (multiUnionMap (ss.map content) i).map f) < 2 ^ 32)
    (hne : ∃ i, i < 64 ^ I.D ∧ multiUnionMap (ss.map content) i ≠ none) :
    Dense.materialize (mapImpl (MAlias.impl I) f) ss = .error .ub := by
  have hb : Built _ (mapImpl (multiUnionImpl I) f) ss (fun i => (multiUnionMap (ss.map content) i).map f) :=
    .map f (.multiUnion content hcfg (by omega) hcap h)
  obtain ⟨i, hi, hv⟩ := hne
  obtain ⟨v, hv⟩ := Option.ne_none_iff_exists'.1 hv
  have plain : ∃ t, Dense.materialize (mapImpl (multiUnionImpl I) f) ss = .ok t ∧
      Dense.keyValues t = .ok (keysOf (64 ^ I.D) (fun i => (multiUnionMap (ss.map content) i).map f),
        (valuesOf (64 ^ I.D) (fun i => (multiUnionMap (ss.map content) i).map f)).map some) := by
    cases hex : I.exact with
    | true =>
      obtain ⟨t, e, -, -, hk, -⟩ := C42_materialize_exact hb hN hex h9 hroom
      exact ⟨t, e, hk⟩
    | false =>
      rcases C43_materialize_partial hb hN hex h9 hroom with ⟨t, e, hr, -⟩ | ⟨-, -, hno⟩
      · exact ⟨t, e, hr.2.2.1⟩
      · have := hno i hi
        rw [hv] at this
        cases this
  obtain ⟨t, e, hk⟩ := plain
  have hs := MAlias.materialize_sim (I := I) (f := f) (ss := ss) (by omega)
  rw [e] at hs
  generalize Dense.materialize (mapImpl (MAlias.impl I) f) ss = y at hs
  rcases hs with ⟨-, hs⟩ | hs
  · exact hs
  · exfalso
    cases hs with
    | ok q =>
      have hl := q.2 hD
      unfold Dense.keyValues at hk
      split at hk
      · have hd := congrArg Prod.snd (Except.ok.inj hk)
        have hm : f v ∈ valuesOf (64 ^ I.D) (fun i => (multiUnionMap (ss.map content) i).map f) :=
          List.mem_filterMap.2 ⟨i, List.mem_range.2 hi, by rw [hv]; rfl⟩
        have hlen := congrArg List.length hd
        simp only [List.length_drop, List.length_map, hl] at hlen
        have := List.length_pos_of_mem hm
        omega
      · cases hk

end

/-! ## Any use of the cursor -/

section
variable {S C δ : Type} {I : Impl S C δ} {ss : List S} {content : S → Nat → Option δ}

theorem path_level {W D : Nat} {B : List Nat → Nat → Bool} {pos : Option (List Nat)} {m : Move} (h : m.Legal W D B pos) :
    (m.path pos).length = m.level := by
  obtain ⟨-, -, hn⟩ := h
  obtain ⟨ch, level, index⟩ := m
  cases level with
  | zero => rfl
  | succ n =>
    obtain ⟨-, p, rfl, hnp, -⟩ := hn n rfl
    simp [Move.path, hnp]

/-- One move of a positioned cursor, with borrows. -/
theorem borrow_move {T : S → TreeSpec δ} {K : S → CursorRel C} (hcfg : ValidCfg I.N I.D) (hD : 2 ≤ I.D) (hcap : ss.length ≤ 32)
    (hTK : ∀ s ∈ ss, LawfulC I s (T s) (K s)) {x : MAlias.Cursor S C} {pos : Option (List Nat)}
    (h : CurAt (muRel (width I.N) I.D T K ss) x.cur pos) (hv : ∀ p, pos = some p → ValidPath (width I.N) p) {m : Move}
    (hl : m.Legal (width I.N) I.D (muSpec T ss).bits pos) :
    ((2 ≤ (m.path pos).length ∧ ∃ j, (muSpec T ss).bits (m.path pos) j = true) →
      MAlias.select I x m.level m.index = .error .ub) ∧
    ((2 ≤ (m.path pos).length → ∀ j, (muSpec T ss).bits (m.path pos) j = false) →
      ∃ mask y, MAlias.select I x m.level m.index = .ok (mask, y) ∧ mask.length = I.N ∧
        (∀ j, mask.bit j = (muSpec T ss).bits (m.path pos) j) ∧ CurAt (muRel (width I.N) I.D T K ss) y.cur (some (m.path pos)) ∧
        ValidPath (width I.N) (m.path pos)) := by
  have hlen := path_level hl
  obtain ⟨mask, c', e, h1, h2, h3, -, h5⟩ := move_spec (mu_lawful hcfg hD hcap hTK) h hv hl
  have e : muSelect I x.cur m.level m.index = .ok (mask, c') := by
    cases hch : m.checked with
    | true => rw [hch] at e; exact e
    | false => rw [hch] at e; exact e
  refine ⟨fun ⟨g1, j, g2⟩ => C90_select_fails (by omega) x e (by rw [h2]; exact g2), fun hq => ?_⟩
  have key : ∃ y, MAlias.select I x m.level m.index = .ok (mask, y) ∧ y.cur = c' := by
    by_cases hn : m.level ≤ 1
    · have hs := C90_select_partial (I := I) hn x m.index
      rw [e] at hs
      cases e2 : MAlias.select I x m.level m.index with
      | error e => rw [e2] at hs; cases hs
      | ok r =>
        rw [e2] at hs
        obtain ⟨m', y⟩ := r
        have hp : (m', y.cur) = (mask, c') := Except.ok.inj hs
        cases hp
        exact ⟨y, rfl, rfl⟩
    · refine MAlias.select_quiet x (by omega) e ?_
      obtain ⟨-, -, -, g, -⟩ := h3
      rw [← hlen, g (m.path pos).length (by omega) (Nat.le_refl _), List.take_length]
      congr 1
      rw [List.filter_eq_nil_iff]
      intro k hk hne
      unfold neIdx at hne
      cases hs : ss[k]? with
      | none => rw [hs] at hne; cases hne
      | some s =>
        rw [hs] at hne
        have hne : neAt (width I.N) T (m.path pos) s = true := hne
        obtain ⟨j, hj⟩ := (neAt_iff (fun i => (hTK s (List.mem_of_getElem? hs)).wf.bits_lt _ i)).1 hne
        have := hq (by omega) j
        simp only [muSpec, List.any_eq_false] at this
        exact this s (List.mem_of_getElem? hs) hj
  obtain ⟨y, e1, e2⟩ := key
  exact ⟨mask, y, e1, h1, h2, by rw [e2]; exact h3, h5⟩

theorem borrow_moves {T : S → TreeSpec δ} {K : S → CursorRel C} (hcfg : ValidCfg I.N I.D) (hD : 2 ≤ I.D) (hcap : ss.length ≤ 32)
    (hTK : ∀ s ∈ ss, LawfulC I s (T s) (K s)) : ∀ (ms : List Move) (x : MAlias.Cursor S C) (pos : Option (List Nat)),
    CurAt (muRel (width I.N) I.D T K ss) x.cur pos → (∀ p, pos = some p → ValidPath (width I.N) p) →
    LegalMoves (width I.N) I.D (muSpec T ss).bits pos ms →
    ((∃ p ∈ movePaths pos ms, 2 ≤ p.length ∧ ∃ j, (muSpec T ss).bits p j = true) →
      runMoves (MAlias.impl I) ss x ms = .error .ub) ∧
    ((∀ p ∈ movePaths pos ms, 2 ≤ p.length → ∀ j, (muSpec T ss).bits p j = false) →
      ∃ masks y, runMoves (MAlias.impl I) ss x ms = .ok (masks, y) ∧
        MasksAre I.N (muSpec T ss).bits masks (movePaths pos ms))
  | [], x, pos, _, _, _ => by
    refine ⟨?_, fun _ => ⟨[], x, rfl, trivial⟩⟩
    rintro ⟨p, hp, -⟩
    cases hp
  | m :: ms, x, pos, h, hv, hl => by
    obtain ⟨f1, f2⟩ := borrow_move hcfg hD hcap hTK h hv hl.1
    have hrun : runMoves (MAlias.impl I) ss x (m :: ms) = (MAlias.select I x m.level m.index >>= fun r =>
        runMoves (MAlias.impl I) ss r.2 ms >>= fun q => .ok (r.1 :: q.1, q.2)) := by
      rw [runMoves]
      cases hch : m.checked <;> rfl
    rw [hrun]
    by_cases hb : 2 ≤ (m.path pos).length ∧ ∃ j, (muSpec T ss).bits (m.path pos) j = true
    · refine ⟨fun _ => by rw [f1 hb]; rfl, fun hq => ?_⟩
      obtain ⟨hb1, j, hb2⟩ := hb
      have := hq (m.path pos) (by simp [movePaths]) hb1 j
      rw [hb2] at this
      cases this
    · have hq : 2 ≤ (m.path pos).length → ∀ j, (muSpec T ss).bits (m.path pos) j = false := fun h2 j => by
        cases hj : (muSpec T ss).bits (m.path pos) j with
        | false => rfl
        | true => exact absurd ⟨h2, j, hj⟩ hb
      obtain ⟨mask, y, e, h1, h2, h3, h4⟩ := f2 hq
      obtain ⟨g1, g2⟩ := borrow_moves hcfg hD hcap hTK ms y (some (m.path pos)) h3 (fun p e => by cases e; exact h4) hl.2
      rw [e]
      constructor
      · rintro ⟨p, hp, hx⟩
        rcases List.mem_cons.1 hp with rfl | hp
        · exact absurd hx hb
        · show runMoves (MAlias.impl I) ss y ms >>= _ = _
          rw [g1 ⟨p, hp, hx⟩]
          rfl
      · intro hall
        obtain ⟨masks, y', e', hm⟩ := g2 fun p hp => hall p (List.mem_cons.2 (.inr hp))
        refine ⟨mask :: masks, y', ?_, ⟨⟨h1, h2⟩, hm⟩⟩
        show runMoves (MAlias.impl I) ss y ms >>= _ = _
        rw [e']
        rfl

/-- **C90**, exactly, for any use of the cursor at any depth from 2: a legal history of selects is free of violations – and
returns the masks of C30 – if every node of level 2 or deeper it selects is empty (at depth 2 there are none), and is undefined
behaviour as soon as one is not. -/
theorem C90_cursor (hcfg : ValidCfg I.N I.D) (hD : 2 ≤ I.D) (hcap : ss.length ≤ 32) (h : ∀ s ∈ ss, Built true I s (content s)) :
    ∃ B, MaskSpec (width I.N) I.D I.exact (multiUnionMap (ss.map content)) B ∧
      ∃ x0, (MAlias.impl I).new ss = .ok x0 ∧ ∀ moves, LegalMoves (width I.N) I.D B none moves →
        ((∃ p ∈ movePaths none moves, 2 ≤ p.length ∧ ∃ j, B p j = true) →
          runMoves (MAlias.impl I) ss x0 moves = .error .ub) ∧
        ((∀ p ∈ movePaths none moves, 2 ≤ p.length → ∀ j, B p j = false) →
          ∃ masks x, runMoves (MAlias.impl I) ss x0 moves = .ok (masks, x) ∧ MasksAre I.N B masks (movePaths none moves)) := by
  obtain ⟨T, K, hTK⟩ := choose_specs (I := I) (ss := ss) (content := content)
    (P := fun s T K => LawfulC I s T K) (fun s hs => (built_isTree (h s hs)).2 rfl)
  have L := mu_lawful hcfg hD hcap (fun s hs => (hTK s hs).1)
  have hcont : ∀ i, i < width I.N ^ I.D → (muSpec T ss).content (path (width I.N) I.D i) =
      multiUnionMap (ss.map content) i := by
    intro i hi
    have e : ss.filterMap (fun s => (T s).content (path (width I.N) I.D i)) =
        (ss.map content).filterMap (fun M => M i) := by
      rw [List.filterMap_map]
      exact filterMap_congr_mem fun s hs => (hTK s hs).2 i hi
    simp only [muSpec, e, multiUnionMap]
    cases (ss.map content).filterMap (fun M => M i) <;> rfl
  obtain ⟨c0, e0, h0⟩ := L.new_ok
  refine ⟨(muSpec T ss).bits, maskSpec (I := multiUnionImpl I) L.wf hcont, ⟨c0, ⟨fun _ => [], 0⟩⟩, ?_, fun moves hl => ?_⟩
  · show (multiUnionImpl I).new ss >>= _ = _
    rw [e0]
    rfl
  · exact borrow_moves hcfg hD hcap (fun s hs => (hTK s hs).1) moves ⟨c0, ⟨fun _ => [], 0⟩⟩ none h0 (fun p e => by cases e) hl

end

/-- Trees of depth 3 (DenseTree, SparseTree) with one element and with none: the multi-union of the first two is undefined behaviour,
that of two empty ones is not; nor is one of depth 2. -/
example : (do
    let e ← Dense.default Nat 3
    let a ← Dense.run 3 e [.insert 5 50]
    let b ← Dense.run 3 e [.insert 70000 51]
    (MAlias.impl (Dense.impl Nat 3)).iterRun [a.1, b.1] 50 1 : R _) = .error .ub ∧
  (do
    let e ← Dense.default Nat 3
    let a ← Dense.run 3 e [.insert 5 50]
    let b ← Dense.run 3 e [.insert 70000 51]
    (multiUnionImpl (Dense.impl Nat 3)).iterRun [a.1, b.1] 50 3 : R _) = .ok [some (5, [50]), some (70000, [51]), none] ∧
  (do
    let e ← Dense.default Nat 3
    (MAlias.impl (Dense.impl Nat 3)).iterRun [e, e] 50 1 : R _) = .ok [none] := by decide +kernel

/-- A SparseTree of depth 3 after any history of the operations of `exOpsB` is a source as `C90_fails` and `C90_iff` require. -/
theorem ex3_built {ops : List (Sparse.Op Nat)} (h : ∀ op ∈ ops, op ∈ exOpsB) :
    ∃ t, Built true (Sparse.impl Nat 1 3) t (Sparse.specRun none emptyMap ops).1 := by
  have hh : SparseHistory 1 3 (none : Option Nat) ops := by
    refine .of_small ⟨by decide, by decide, by decide⟩ (by decide) ?_
    intro op ho
    have h := h op ho
    simp only [exOpsB, List.mem_cons, List.not_mem_nil, or_false] at h
    rcases h with rfl | rfl | rfl <;> simp [Sparse.Op.Ok] <;> decide
  obtain ⟨t, e1, -⟩ := hh.reachCap (Sparse.idxCap_ok 3) hh.fits
  exact ⟨t, .sparse hh ⟨_, e1⟩⟩

/-- The hypotheses of `C90_fails`, `C90_iff` and `C90_empty_partial` hold of trees of depth 3: one with the elements of `exOpsB`, and
an empty one. -/
example : (Sparse.impl Nat 1 3).exact = true ∧ ValidCfg 1 3 ∧
    (∃ t M, Built true (Sparse.impl Nat 1 3) t M ∧ multiUnionMap ([t].map fun _ => M) 5 ≠ none) ∧
    ∃ t M, Built true (Sparse.impl Nat 1 3) t M ∧ ∀ i, multiUnionMap ([t].map fun _ => M) i = none := by
  refine ⟨rfl, Dense.validCfg (by decide) (by decide), ?_, ?_⟩
  · obtain ⟨t, ht⟩ := ex3_built (ops := exOpsB) (fun _ h => h)
    exact ⟨t, _, ht, show multiUnionMap [(Sparse.specRun none emptyMap exOpsB).1] 5 ≠ none by decide⟩
  · obtain ⟨t, ht⟩ := ex3_built (ops := []) (fun _ h => by cases h)
    exact ⟨t, _, ht, fun i => rfl⟩

/-- `C90_cursor` on a depth-3 tree with the element 70000 = (17, 5, 48): selecting the node of keys 0..4095 and its empty child is
fine, the node of the element is undefined behaviour. -/
example : (do
    let e ← Dense.default Nat 3
    let a ← Dense.run 3 e [.insert 70000 50]
    let U := MAlias.impl (Dense.impl Nat 3)
    let c ← U.new [a.1]
    let r ← runMoves U [a.1] c [⟨true, 0, 0⟩, ⟨true, 1, 0⟩, ⟨true, 2, 0⟩, ⟨true, 1, 17⟩]
    return r.1.map fun m => m.ones : R _) = .ok [[17], [], [], [5]] ∧
  (do
    let e ← Dense.default Nat 3
    let a ← Dense.run 3 e [.insert 70000 50]
    let U := MAlias.impl (Dense.impl Nat 3)
    let c ← U.new [a.1]
    let r ← runMoves U [a.1] c [⟨true, 0, 0⟩, ⟨true, 1, 17⟩, ⟨true, 2, 5⟩]
    return r.1 : R _) = .error .ub := by decide +kernel

/-- `materialize` of the sums over a multi-union: fine at depth 2, undefined behaviour at depth 3. -/
example : (do
    let t ← Dense.materialize (mapImpl (MAlias.impl (Dense.impl Nat 2)) List.sum) [exD, exD]
    Dense.keyValues t : R _) = .ok ([5, 64, 200], [some 112, some 144, some 404]) ∧
  (do
    let e ← Dense.default Nat 3
    let a ← Dense.run 3 e [.insert 70000 50]
    let t ← Dense.materialize (mapImpl (MAlias.impl (Dense.impl Nat 3)) List.sum) [a.1, a.1]
    Dense.keyValues t : R _) = .error .ub := by decide +kernel

example : (MAlias.impl (Dense.impl Nat 2)).iterRun [exD, exD] 50 1 = .ok [some (5, [56, 56])] ∧
    (MAlias.impl (Dense.impl Nat 2)).iterRun [exD, exD] 50 3 = (multiUnionImpl (Dense.impl Nat 2)).iterRun [exD, exD] 50 3 := by
  decide +kernel

/-! ## What the model rejects, and what it does not -/

/-- It is the `&` to the whole slice that is wrong, and nothing else: with the previous level's list borrowed alone
(`MAlias.selectRepaired` – not the code of the crate), a cursor in any state selects any node of any level, over any source trees,
as the code without borrows does. -/
theorem C90_repaired {S C δ : Type} {I : Impl S C δ} (x : MAlias.Cursor S C) (n i : Nat) :
    (MAlias.selectRepaired I x n i).map (fun r => (r.1, r.2.cur)) = muSelect I x.cur n i := by
  have h := MAlias.selectRepaired_eq (I := I) (i := i) x n
  generalize muSelect I x.cur n i = p at h
  generalize MAlias.selectRepaired I x n i = q at h
  cases h with
  | ok q => obtain ⟨e1, e2⟩ := q; exact congrArg Except.ok (Prod.ext e1.symm e2)
  | err => rfl

/-- The borrows of a selection at level `n ≥ 2` that makes one node non-empty (_multi_union.rs:193-219), with the given way to borrow
the previous level's list: read an index from it, then push to the list of level `n`. -/
def selectOne (prev : MAlias.Tag → MAlias.St → R (MAlias.Tag × MAlias.St)) (L n : Nat) : R Unit := do
  let ((s, p, u, l), z) ← MAlias.enter L n ⟨fun _ => [], 0⟩
  let (r, z) ← prev p z
  let z ← MAlias.touch .read r (.lvl (n - 2)) z
  let z ← MAlias.method .uniq u .cursors z
  let z ← MAlias.method .uniq l (.lvl (n - 1)) z
  MAlias.leave s (MAlias.whole L) z

/-- A push that, while it holds its `&mut self`, touches the same list through the owner and then returns without using `self` again.
`prot`: is the end of the call checked? Nothing else is wrong with it. -/
def pushBesideSelf (prot : Bool) (w : MAlias.Acc) (k : Nat) (z : MAlias.St) : R Unit := do
  let (t, z) ← MAlias.retag .uniq none [.lvl k] z
  let z ← MAlias.touch .write t (.lvl k) z
  let z ← MAlias.touch w none (.lvl k) z
  if prot then MAlias.leave t [.lvl k] z

/-- `lvl_non_empty_states` used after `lvls_non_empty_states.as_mut()` made a new `&mut` to the slice. -/
def pushAfterAsMut (L n : Nat) : R Unit := do
  let ((_, p, _, l), z) ← MAlias.enter L n ⟨fun _ => [], 0⟩
  let (_, z) ← MAlias.retag .uniq p (MAlias.slice L) z
  let _ ← MAlias.method .uniq l (.lvl (n - 1)) z

/-- The selection of the code and the repaired one; and the other rules matter: `&mut` references end when others are made, and arguments must stay valid until a call returns (the two calls
with `prot` off have no other fault). -/
theorem C90_rejects :
    selectOne (MAlias.prevList 3 2) 3 2 = .error .ub ∧ selectOne (MAlias.prevAlone 2) 3 2 = .ok () ∧
    selectOne (MAlias.prevList 3 3) 3 3 = .error .ub ∧ selectOne (MAlias.prevAlone 3) 3 3 = .ok () ∧
    pushAfterAsMut 3 2 = .error .ub ∧
    pushBesideSelf true .write 0 ⟨fun _ => [], 0⟩ = .error .ub ∧ pushBesideSelf false .write 0 ⟨fun _ => [], 0⟩ = .ok () ∧
    pushBesideSelf true .read 0 ⟨fun _ => [], 0⟩ = .error .ub ∧ pushBesideSelf false .read 0 ⟨fun _ => [], 0⟩ = .ok () := by
  refine ⟨?_, ?_, ?_, ?_, ?_, ?_, ?_, ?_, ?_⟩ <;> rfl

end Hibit.Props
