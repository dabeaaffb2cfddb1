import Verif.Dense.Panic
import Verif.Sparse.Panic
import Verif.Dense.Stale
import Verif.Sparse.Stale
import Verif.Props.Sparse
import Verif.Props.Materialize
/-!
# Properties C47 – C49: panics in the caller's code

Histories are lists of `PEvent`: an ordinary operation, or a `get_or_insert` whose `T::default()`
panics, with the panic caught by the caller (`catch_unwind`) and the container used further.
`PEvent.spec`, `pspecRun` (`Verif/Dense/Panic.lean`, `Verif/Sparse/Panic.lean`) say what such a
history should do to a map: the panicking call does nothing.
-/
namespace Hibit.Props
open Hibit

variable {α : Type}

theorem runMoves_exact_irrel {S C δ : Type} (I : Impl S C δ) (b : Bool) (s : S) : ∀ (ms : List Move) (c : C),
    runMoves I s c ms = runMoves { I with exact := b } s c ms := by
  intro ms
  induction ms with
  | nil => intro c; rfl
  | cons m ms ih =>
    intro c
    simp only [runMoves, ih]

/-! ## DenseTree -/

section
open Hibit.Dense

/-- A supported history with caught panics. -/
structure DensePHistory (D : Nat) (es : List (PEvent α)) : Prop where
  depth_pos : 1 ≤ D
  depth_le : D ≤ 9
  ok : ∀ e ∈ es, e.Ok D
  bounded : PBounded (64 ^ D) (2 ^ 32) emptyMap es

theorem isTreeC_inexact {D : Nat} {t : DT α} {M : Nat → Option α} (h1 : 1 ≤ D) (h9 : D ≤ 9)
    (R : DRep NoNode D t M) : IsTreeC (denseInexact α D) t M := by
  obtain ⟨T, K, L, hT⟩ := R.lawfulX h1 h9
  refine ⟨T, K, L, fun i hi => ?_⟩
  show T.content (path 64 D i) = _
  rw [hT, unpath_path 64 D i hi]

theorem getIterIs_inexact {S C δ : Type} {I : Impl S C δ} {s : S} {M : Nat → Option δ}
    (h : IsTree { I with exact := false } s M) : GetIterIs I s M := by
  obtain ⟨h1, F, h2⟩ := getIter h
  refine ⟨h1, F, fun fuel hf n => ?_⟩
  rw [← iterRun_exact_irrel false]
  exact h2 fuel hf n

/-- **C47**, DenseTree: in any history of operations in which some `get_or_insert` calls unwind from
`T::default()`, every call returns what it returns on the map, on which the unwinding calls have no
effect; there is no other panic and no undefined behaviour; afterwards `get`, iteration, cursors (as a
tree without exact hierarchy) and `key_values` show exactly the map, and dropping the tree drops
exactly the stored values and leaves no node allocated. -/
theorem C47_dense {D : Nat} {es : List (PEvent α)} (h : DensePHistory D es) :
    ∃ t0 t, Dense.default α D = .ok t0 ∧ prun D t0 es = .ok (t, (pspecRun emptyMap es).2) ∧
      GetIterIs (impl α D) t (pspecRun emptyMap es).1 ∧
      IsTreeC (denseInexact α D) t (pspecRun emptyMap es).1 ∧
      (∃ (ks : List Nat) (vs : List α), keyValues t = .ok (ks, vs.map some) ∧
        ks.length = vs.length ∧ ks.Nodup ∧
        ∀ k v, (∃ j : Nat, ks[j]? = some k ∧ vs[j]? = some v) ↔
          k < 64 ^ D ∧ (pspecRun emptyMap es).1 k = some v) ∧
      ∃ vs heap', dropImpl D t = .ok (vs, heap') ∧
        List.Perm vs (valuesOf (64 ^ D) (pspecRun emptyMap es).1) ∧ ∀ a, heap'.node a = none := by
  obtain ⟨t0, e0, R0⟩ := default_rep α h.depth_pos h.depth_le
  obtain ⟨t, e, R⟩ := prun_spec h.depth_le es t0 emptyMap R0.weaken h.ok h.bounded
  have ht := isTreeC_inexact h.depth_pos h.depth_le R
  exact ⟨t0, t, e0, e, getIterIs_inexact ht.isTree, ht, keyValues_spec R,
    dropImpl_spec R h.depth_pos⟩

/-- A concrete history with two unwinding calls (keys 5 and 4095), one call on a present key, and
later insertion and removal of a key whose default panicked. -/
def exPanics : List (PEvent Nat) :=
  [.op (.insert 64 1), .defaultPanics 5, .defaultPanics 64, .op (.get 5), .op (.insert 5 7),
   .defaultPanics 4095, .op (.remove 5), .op (.remove 4095), .op (.insert 6 8)]

theorem exPanics_history : DensePHistory 2 exPanics := by
  refine ⟨by decide, by decide, ?_, ?_⟩
  · intro e h
    simp only [exPanics, List.mem_cons, List.not_mem_nil, or_false] at h
    rcases h with rfl | rfl | rfl | rfl | rfl | rfl | rfl | rfl | rfl <;>
      simp [PEvent.Ok, Op.OkDepth, Op.InRange]
  · have hlt : ∀ M : Nat → Option Nat, card (64 ^ 2) M < 2 ^ 32 := fun M =>
      Nat.lt_of_le_of_lt (card_le _ M) (by decide)
    refine ⟨hlt _, hlt _, hlt _, hlt _, hlt _, hlt _, hlt _, hlt _, hlt _, hlt _⟩

/-- The run of C47 on it. -/
example : (do
    let t0 ← Dense.default Nat 2
    let r ← prun 2 t0 exPanics
    return (r.2, ← (impl Nat 2).get r.1 6, ← (impl Nat 2).iterRun r.1 9 3) : R _) =
    .ok ([(none, []), (none, []), (some 1, []), (none, []), (none, []), (none, []), (some 7, []),
     (none, []), (none, [])], some 8, [some (6, 8), some (64, 1), none]) := by decide +kernel

example : (pspecRun emptyMap exPanics).2 =
    [(none, []), (none, []), (some 1, []), (none, []), (none, []), (none, []), (some 7, []),
     (none, []), (none, [])] := by decide

example : (pspecRun emptyMap exPanics).1 6 = some 8 ∧ (pspecRun emptyMap exPanics).1 5 = none ∧
    (pspecRun emptyMap exPanics).1 64 = some 1 ∧ (pspecRun emptyMap exPanics).1 4095 = none := by
  decide

/-- **C48** is false: after one caught panic of `T::default()` for key 70 in an empty
`DenseTree<T, 2>`, which claims `EXACT_HIERARCHY`, the root mask has bit 1 set although no key is
present; and materializing a view of the tree (here `map`), which relies on the claim, copies
the empty node into a new tree. -/
theorem C48_fails_dense :
    (impl Nat 2).exact = true ∧
    ((do let t ← Dense.default Nat 2
         let (t, v) ← getOrInsertPanic 2 t 70
         let c ← (impl _ 2).new t
         let (masks, _) ← runMoves (impl _ 2) t c [⟨true, 0, 0⟩, ⟨true, 1, 1⟩]
         let t' ← materialize (mapImpl (impl Nat 2) (fun x => x + 1)) t
         let c' ← (impl _ 2).new t'
         let (masks', _) ← runMoves (impl _ 2) t' c' [⟨true, 0, 0⟩, ⟨true, 1, 1⟩]
         return (v, masks, masks')) :
      R (Option Nat × List Mask × List Mask)) = .ok (none, [[2], [0]], [[2], [0]]) :=
  ⟨rfl, by rfl⟩

/-- **C48**, what holds, DenseTree: in any history with caught panics, every set bit of every mask a
cursor shows leads to a stored key or to a stale key, i.e. one whose `T::default()` panicked while it was
absent and from whose block of 64 indices nothing has been removed since (`staleRun`); terminal masks
are exact in any case (`MaskSpec.terminal`); and if no stale key is left the tree is exact
as declared (`IsTreeC` of the type with `EXACT_HIERARCHY`). Missing: exactness in the
presence of stale keys, which is false (`C48_fails_dense`). -/
theorem C48_dense_partial {D : Nat} {es : List (PEvent α)} (h : DensePHistory D es) :
    ∃ t0 t, Dense.default α D = .ok t0 ∧ prun D t0 es = .ok (t, (pspecRun emptyMap es).2) ∧
      (∃ B, MaskSpec 64 D false (pspecRun emptyMap es).1 B ∧
        (∀ p j, ValidPath 64 p → p.length < D → B p j = true →
          ∃ q, ValidPath 64 (p ++ j :: q) ∧ (p ++ j :: q).length = D ∧
            (((pspecRun emptyMap es).1 (unpath 64 (p ++ j :: q))).isSome = true ∨
              unpath 64 (p ++ j :: q) ∈ staleRun emptyMap [] es)) ∧
        ∃ c0, (impl α D).new t = .ok c0 ∧ ∀ moves, LegalMoves 64 D B none moves →
          ∃ masks c, runMoves (impl α D) t c0 moves = .ok (masks, c) ∧
            MasksAre 1 B masks (movePaths none moves)) ∧
      (staleRun emptyMap [] es = [] → IsTreeC (impl α D) t (pspecRun emptyMap es).1) := by
  obtain ⟨t0, e0, R0⟩ := default_rep α h.depth_pos h.depth_le
  obtain ⟨⟨t, e, R⟩, hst⟩ := prun_stale h.depth_le es t0 emptyMap [] (R0.mono fun _ _ => trivial)
    (fun k hk => by cases hk) h.ok h.bounded
  refine ⟨t0, t, e0, e, ?_, ?_⟩
  · obtain ⟨loc, K, S⟩ := R
    have L := S.lawful h.depth_pos h.depth_le (e := false) (fun h => by cases h)
    refine ⟨(locSpec D loc K (pspecRun emptyMap es).1).bits, maskSpec L.wf (fun i hi => ?_),
      fun p j hv hl hb => S.bits_stale hst hv hl hb, ?_⟩
    · show (pspecRun emptyMap es).1 (unpath 64 (path 64 D i)) = _
      rw [unpath_path 64 D i hi]
    · obtain ⟨c0, e0, h0⟩ := L.new_ok
      refine ⟨c0, e0, fun moves hl => ?_⟩
      obtain ⟨masks, c, e1, h1, -⟩ := moves_spec L.toLawful moves c0 none h0 (fun p e => by cases e) hl
      refine ⟨masks, c, ?_, h1⟩
      rw [← e1]
      exact runMoves_exact_irrel _ false _ _ _
  · intro h0
    rw [h0] at R
    exact isTreeC_of_rep h.depth_pos h.depth_le (R.mono fun p _ k hk => by cases hk)

/-- In `exPanics` the stale keys 5 (block 0) and 4095 (block 63) arise; removing 5 cleans up block 0. -/
example : staleRun emptyMap [] exPanics = [4095] := by decide

example : staleRun (α := Nat) emptyMap []
    [.defaultPanics 5, .op (.insert 6 1), .defaultPanics 6, .op (.remove 6)] = [] := by decide

end

/-! ## SparseTree -/

section
open Hibit.Sparse

variable {N D : Nat} {dflt : Option α}

/-- A supported history with caught panics: no state exhausts a child index type, counting also the
keys whose default has panicked (the blocks on their way stay allocated). -/
structure SparsePHistory (N D : Nat) (dflt : Option α) (es : List (PEvent α)) : Prop where
  cfg : Cfg N D
  ok : ∀ e ∈ es, e.Ok (keyRange N D) dflt
  fits : PAlways dflt (Fits (width N) D idxCap) [] emptyMap es

/-- `SparseTree` with `EXACT_HIERARCHY` turned off. -/
def sparseInexact (α : Type) (N D : Nat) : Impl (ST α) Sparse.Cursor α :=
  { impl α N D with exact := false }

/-- **C47**, SparseTree: as `C47_dense`. -/
theorem C47_sparse {es : List (PEvent α)} (h : SparsePHistory N D dflt es) :
    ∃ t, prun N D (Sparse.default α N D dflt) es = .ok (t, (pspecRun dflt emptyMap es).2) ∧
      GetIterIs (impl α N D) t (pspecRun dflt emptyMap es).1 ∧
      IsTreeC (sparseInexact α N D) t (pspecRun dflt emptyMap es).1 ∧
      (∀ k d, k < keyRange N D → dflt = some d →
        getOrDefault N D t k = .ok (((pspecRun dflt emptyMap es).1 k).getD d)) ∧
      (∃ (ks : List Nat) (vs : List α), keyValues t = .ok (ks, vs.map some) ∧
        ks.length = vs.length ∧ ks.Nodup ∧
        ∀ k v, (∃ j : Nat, ks[j]? = some k ∧ vs[j]? = some v) ↔
          k < width N ^ D ∧ (pspecRun dflt emptyMap es).1 k = some v) ∧
      ∃ vs, dropImpl dflt.isSome t = .ok (dflt.toList ++ vs) ∧
        List.Perm vs (valuesOf (width N ^ D) (pspecRun dflt emptyMap es).1) := by
  have hcap := idxCap_ok D
  obtain ⟨t, e, R⟩ := prun_spec h.cfg hcap es [] _ emptyMap
    ⟨_, default_ss h.cfg.pos hcap.one⟩ h.ok h.fits
  have ht : IsTreeC (sparseInexact α N D) t (pspecRun dflt emptyMap es).1 := by
    obtain ⟨T, K, L, hT⟩ := R.lawfulX h.cfg
    refine ⟨T, K, L, fun i hi => ?_⟩
    rw [hT]
    show (pspecRun dflt emptyMap es).1 (unpath (width N) (path (width N) D i)) = _
    rw [unpath_path (width N) D i hi]
  obtain ⟨B, S⟩ := R
  exact ⟨t, e, getIterIs_inexact ht.isTree, ht,
    fun k d hk hd => S.getOrDefault_spec h.cfg hk hd, S.keyValues_spec, S.dropImpl_spec⟩

/-- Width 64 up to depth 5, width 128 up to depth 4: every history fits. -/
theorem SparsePHistory.of_small {es : List (PEvent α)} (hc : Cfg N D)
    (hs : N = 1 ∧ D ≤ 5 ∨ N = 2 ∧ D ≤ 4)
    (hr : ∀ e ∈ es, e.Ok (keyRange N D) dflt) : SparsePHistory N D dflt es := by
  refine ⟨hc, hr, ?_⟩
  have key : ∀ M : Nat → Option Unit, Fits (width N) D idxCap M := fun M => by
    refine fits_of_card (by omega) M ?_
    have h1 := card_le (width N ^ D) M
    rcases hs with ⟨rfl, h⟩ | ⟨rfl, h⟩
    · have h2 : width 1 ^ D ≤ 64 ^ 5 := Nat.pow_le_pow_right (by decide) h
      exact Nat.lt_of_le_of_lt (Nat.le_trans h1 h2) (by decide)
    · have h2 : width 2 ^ D ≤ 128 ^ 4 := Nat.pow_le_pow_right (by decide) h
      exact Nat.lt_of_le_of_lt (Nat.le_trans h1 h2) (by decide)
  have : ∀ (es : List (PEvent α)) Ph M, PAlways dflt (Fits (width N) D idxCap) Ph M es := by
    intro es
    induction es with
    | nil => intro Ph M; exact key _
    | cons e es ih => intro Ph M; exact ⟨key _, ih _ _⟩
  exact this es [] _

/-- A concrete history with unwinding calls on a tree with a default. -/
def exPanicsS : List (PEvent Nat) :=
  [.op (.insert 200 1), .defaultPanics 5, .defaultPanics 200, .op (.getOrDefault 5),
   .op (.insert 5 7), .defaultPanics 16383, .op (.remove 5), .op (.remove 16383),
   .op (.getOrInsert 6 8 (· + 1))]

theorem exPanicsS_history : SparsePHistory 2 2 (some 9) exPanicsS := by
  refine .of_small ⟨by decide, by decide, by decide⟩ (by decide) ?_
  intro e h
  simp only [exPanicsS, List.mem_cons, List.not_mem_nil, or_false] at h
  rcases h with rfl | rfl | rfl | rfl | rfl | rfl | rfl | rfl | rfl <;>
    simp [PEvent.Ok, Op.Ok] <;> decide

/-- The run of C47 on it. -/
example : (do
    let r ← prun 2 2 (Sparse.default Nat 2 2 (some 9)) exPanicsS
    return (r.2, ← (impl Nat 2 2).iterRun r.1 9 3) : R _) =
    .ok ([(none, []), (none, []), (some 1, []), (some 9, []), (none, []), (none, []), (some 7, []),
     (none, []), (some 8, [])], [some (6, 9), some (200, 1), none]) := by decide +kernel

example : (pspecRun (some 9) emptyMap exPanicsS).2 =
    [(none, []), (none, []), (some 1, []), (some 9, []), (none, []), (none, []), (some 7, []),
     (none, []), (some 8, [])] := by decide

/-- **C48** is false: after one caught panic of `Data::default()` for key 70 in an empty
`SparseTree` of width 64 and depth 2, which claims `EXACT_HIERARCHY`, the root mask has bit 1 set
although no key is present. -/
theorem C48_fails_sparse :
    (impl Nat 1 2).exact = true ∧
    ((do let (t, v) ← getOrInsertPanic 1 2 (Sparse.default Nat 1 2 none) 70
         let c ← (impl _ 1 2).new t
         let (masks, _) ← runMoves (impl _ 1 2) t c [⟨true, 0, 0⟩, ⟨true, 1, 1⟩]
         return (v, masks)) :
      R (Option Nat × List Mask)) = .ok (none, [[2], [0]]) :=
  ⟨rfl, by rfl⟩

/-- **C48**, what holds, SparseTree: as `C48_dense_partial`, with blocks of `width N` indices. -/
theorem C48_sparse_partial {es : List (PEvent α)} (h : SparsePHistory N D dflt es) :
    ∃ t, prun N D (Sparse.default α N D dflt) es = .ok (t, (pspecRun dflt emptyMap es).2) ∧
      (∃ B, MaskSpec (width N) D false (pspecRun dflt emptyMap es).1 B ∧
        (∀ p j, ValidPath (width N) p → p.length < D → B p j = true →
          ∃ q, ValidPath (width N) (p ++ j :: q) ∧ (p ++ j :: q).length = D ∧
            (((pspecRun dflt emptyMap es).1 (unpath (width N) (p ++ j :: q))).isSome = true ∨
              unpath (width N) (p ++ j :: q) ∈ staleRun (width N) dflt emptyMap [] es)) ∧
        ∃ c0, (impl α N D).new t = .ok c0 ∧ ∀ moves, LegalMoves (width N) D B none moves →
          ∃ masks c, runMoves (impl α N D) t c0 moves = .ok (masks, c) ∧
            MasksAre N B masks (movePaths none moves)) ∧
      (staleRun (width N) dflt emptyMap [] es = [] →
        IsTreeC (impl α N D) t (pspecRun dflt emptyMap es).1) := by
  have hcap := idxCap_ok D
  obtain ⟨⟨t, e, R⟩, -⟩ := prun_stale h.cfg hcap es [] [] _ emptyMap
    ⟨_, default_ss h.cfg.pos hcap.one⟩ (fun k hk => by cases hk) (fun k hk => hk) h.ok h.fits
  refine ⟨t, e, ?_, ?_⟩
  · obtain ⟨B, S⟩ := R
    have L := S.lawfulX h.cfg (ex := false) (fun h => by cases h)
    refine ⟨(blockSpec N B (pspecRun dflt emptyMap es).1).bits, maskSpec L.wf (fun i hi => ?_),
      fun p j _ hl hb => S.bits_stale hl hb, ?_⟩
    · show (pspecRun dflt emptyMap es).1 (unpath (width N) (path (width N) D i)) = _
      rw [unpath_path (width N) D i hi]
    · obtain ⟨c0, e0, h0⟩ := L.new_ok
      refine ⟨c0, e0, fun moves hl => ?_⟩
      obtain ⟨masks, c, e1, h1, -⟩ := moves_spec L.toLawful moves c0 none h0 (fun p e => by cases e) hl
      refine ⟨masks, c, ?_, h1⟩
      rw [← e1]
      exact runMoves_exact_irrel _ false _ _ _
  · intro h0
    rw [h0] at R
    obtain ⟨T, K, L, hT⟩ := R.lawful h.cfg
    refine ⟨T, K, L, fun i hi => ?_⟩
    rw [hT]
    show (pspecRun dflt emptyMap es).1 (unpath (width N) (path (width N) D i)) = _
    rw [unpath_path (width N) D i hi]

/-- In `exPanicsS` the stale keys 5 (block 0) and 16383 (block 127) arise; removing 5 cleans up block 0. -/
example : staleRun 128 (some 9) emptyMap [] exPanicsS = [16383] := by decide

end

/-! ## Panics during construction -/

/-- **C49** is false: if the source's data (e.g. the closure of a `map`) panics during `materialize`,
after any number of elements, the unwinding drops a vector whose element 0 is uninitialised. -/
theorem C49_fails_materialize {C : Type} (h : Dense.Heap) (c : C) (kvs : List (Nat × α)) :
    Dense.vecDrop (Dense.pushAll h c kvs).data = .error .ub := by
  have : ∀ (kvs : List (Nat × α)) (st : Dense.MSt C α), st.data.head? = some none →
      (kvs.foldl (fun st kv => (Dense.pushData st kv.1 kv.2).1) st).data.head? = some none := by
    intro kvs
    induction kvs with
    | nil => intro st h; exact h
    | cons kv kvs ih =>
      intro st h
      refine ih _ ?_
      simp only [Dense.pushData, List.head?_append, h, Option.or]
  have h0 := this kvs ⟨h, c, [none], [usizeMod - 1]⟩ rfl
  unfold Dense.pushAll
  revert h0
  generalize (kvs.foldl (fun st kv => (Dense.pushData st kv.1 kv.2).1)
    (⟨h, c, [none], [usizeMod - 1]⟩ : Dense.MSt C α)).data = l
  intro h0
  cases l with
  | nil => cases h0
  | cons a l =>
    simp only [List.head?_cons, Option.some.injEq] at h0
    subst h0
    rfl

/-- **C49** is false for `SparseTree::default()` with `ReqDefault`: if `Data::default()` panics, the
unwinding drops an uninitialised value. -/
theorem C49_fails_default (N D : Nat) :
    Sparse.defaultWith α N D true (.error .panic) = .error .ub := rfl

/-- **C49**, the part that holds: without `ReqDefault` (whatever `Data::default()` would do), or with a
`Data::default()` that returns, construction gives a tree that is empty and whose drop releases exactly
the default. Missing: safe unwinding (`C49_fails_default`, `C49_fails_materialize`). -/
theorem C49_default_partial {N D : Nat} (hc : Sparse.Cfg N D) (required : Bool) (init : R α)
    (h : required = true → ∃ d, init = .ok d) :
    ∃ t, Sparse.defaultWith α N D required init = .ok t ∧
      (∀ k, k < Sparse.keyRange N D → (Sparse.impl α N D).get t k = .ok none) ∧
      Sparse.dropImpl required t =
        .ok (match init with | .ok d => if required then [d] else [] | .error _ => []) := by
  cases required with
  | false =>
    refine ⟨_, rfl, (C45_sparse_empty hc none).1, ?_⟩
    cases init <;> rfl
  | true =>
    obtain ⟨d, rfl⟩ := h rfl
    exact ⟨_, rfl, (C45_sparse_empty hc (some d)).1, rfl⟩

/-- With `ReqDefault` and `Data::default()` = 9; and without, where a panicking default is not called. -/
example : (do
    let t ← Sparse.defaultWith Nat 2 2 true (.ok 9)
    return (← (Sparse.impl Nat 2 2).get t 5, ← Sparse.dropImpl true t) : R _) = .ok (none, [9]) ∧
    (do
      let t ← Sparse.defaultWith Nat 2 2 false (.error .panic)
      return (← (Sparse.impl Nat 2 2).get t 5, ← Sparse.dropImpl false t) : R _) = .ok (none, []) := by
  decide +kernel

end Hibit.Props
