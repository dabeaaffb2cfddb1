import Verif.Props.ValueIter
import Verif.Props.Readme
import Verif.Props.Equiv
import Verif.Props.Custom
/-!
# Properties C27 – C36, C39 – C43, C50, C52, C56, for every tree a user can build

`Built x I s M` below is the language of tree expressions: containers after any supported history
(including DenseTrees made by `materialize`), trees written by the user that behave as documented
(`TreeDocs`), and combinators applied to smaller expressions. The map
`M` is the meaning: the reference map of the history, or the pointwise operation. The theorems do not
mention the proof-side trait contract (`IsTree`).
-/
namespace Hibit.Props
open Hibit

/-- Expressions over trees and the map each denotes. `Built true` expressions may be nested
anywhere; `Built false` ones (containing a `multi_union` whose checked cursor data is not lawful,
see `C39_fails`) may be nested everywhere except under `union` / `multi_union`. -/
inductive Built : Bool → {S C δ : Type} → Impl S C δ → S → (Nat → Option δ) → Prop
  /-- a `DenseTree` after any supported history -/
  | dense {α : Type} {D : Nat} {ops : List (Dense.Op α)} {t : Dense.DT α} :
      DenseHistory D ops → DenseReached D ops t →
      Built true (Dense.impl α D) t (Dense.specRun emptyMap ops).1
  /-- a `SparseTree`, of any width and depth, after any supported
  history -/
  | sparse {α : Type} {N D : Nat} {dflt : Option α} {ops : List (Sparse.Op α)} {t : Sparse.ST α} :
      SparseHistory N D dflt ops → SparseReached N D dflt ops t →
      Built true (Sparse.impl α N D) t (Sparse.specRun dflt emptyMap ops).1
  /-- a `DenseTree` materialized from an expression with exact hierarchy, after any further history -/
  | materialized {x : Bool} {S C α : Type} {I : Impl S C α} {s : S} {M : Nat → Option α}
      {ops : List (Dense.Op α)} {t t' : Dense.DT α} {outs : List (Option α × List α)} :
      Built x I s M → I.N = 1 → I.exact = true → I.D ≤ 9 → card (64 ^ I.D) M < 2 ^ 32 →
      Dense.materialize I s = .ok t → LaterHistory I.D (restrict (64 ^ I.D) M) ops →
      Dense.run I.D t ops = .ok (t', outs) →
      Built true (Dense.impl α I.D) t' (Dense.specRun (restrict (64 ^ I.D) M) ops).1
  /-- any other tree that behaves as the traits' documentation says (`Props/Custom.lean`) -/
  | custom {x : Bool} {S C δ : Type} {I : Impl S C δ} {s : S} {M : Nat → Option δ} :
      TreeDocs x I s M → Built x I s M
  | weaken {S C δ : Type} {I : Impl S C δ} {s : S} {M : Nat → Option δ} :
      Built true I s M → Built false I s M
  | union {S0 C0 δ0 S1 C1 δ1 : Type} {I0 : Impl S0 C0 δ0} {I1 : Impl S1 C1 δ1} {a : S0} {b : S1}
      {A : Nat → Option δ0} {B : Nat → Option δ1} : I0.N = I1.N → I0.D = I1.D →
      Built true I0 a A → Built true I1 b B → Built true (unionImpl I0 I1) (a, b) (unionMap A B)
  | inter {x : Bool} {S0 C0 δ0 S1 C1 δ1 : Type} {I0 : Impl S0 C0 δ0} {I1 : Impl S1 C1 δ1} {a : S0}
      {b : S1} {A : Nat → Option δ0} {B : Nat → Option δ1} : I0.N = I1.N → I0.D = I1.D →
      Built x I0 a A → Built x I1 b B → Built x (interImpl I0 I1) (a, b) (interMap A B)
  | map {x : Bool} {S C δ ε : Type} {I : Impl S C δ} {a : S} {A : Nat → Option δ} (f : δ → ε) :
      Built x I a A → Built x (mapImpl I f) a (fun i => (A i).map f)
  | multiInter {S C δ : Type} {I : Impl S C δ} {ss : List S} (content : S → Nat → Option δ) :
      ss ≠ [] → ss.length ≤ 32 → (∀ s ∈ ss, Built false I s (content s)) →
      Built true (multiInterImpl I) ss (multiInterMap (ss.map content))
  | multiUnion {S C δ : Type} {I : Impl S C δ} {ss : List S} (content : S → Nat → Option δ) :
      ValidCfg I.N I.D → 2 ≤ I.D → ss.length ≤ 32 → (∀ s ∈ ss, Built true I s (content s)) →
      Built false (multiUnionImpl I) ss (multiUnionMap (ss.map content))
  | fold {x : Bool} {S C δ β : Type} {I : Impl S C (List δ)} {s : S} {A : Nat → Option (List δ)}
      (init : β) (f : β → δ → β) : Built x I s A →
      Built x (foldImpl I init f) s (fun i => (A i).map (fun vs => vs.foldl f init))

theorem built_isTree {x : Bool} {S C δ : Type} {I : Impl S C δ} {s : S} {M : Nat → Option δ}
    (h : Built x I s M) : IsTree I s M ∧ (x = true → IsTreeC I s M) := by
  induction h with
  | dense h hr => have := dense_isTree h hr; exact ⟨this.isTree, fun _ => this⟩
  | sparse h hr => have := sparse_isTree h hr; exact ⟨this.isTree, fun _ => this⟩
  | materialized _ hN hex h9 hroom em hl er ih =>
    obtain ⟨t, e1, -, -, -, hu⟩ := contract_materialize_exact ih.1 hN hex h9 hroom
    rw [em] at e1
    cases e1
    obtain ⟨t', e2, g, -⟩ := hu _ hl
    rw [er] at e2
    cases e2
    exact ⟨g.isTree, fun _ => g⟩
  | custom h => exact docs_isTree h
  | weaken _ ih => exact ⟨ih.1, fun e => by cases e⟩
  | union hN hD _ _ iha ihb =>
    have := union_isTree hN hD (iha.2 rfl) (ihb.2 rfl)
    exact ⟨this.isTree, fun _ => this⟩
  | inter hN hD _ _ iha ihb =>
    exact ⟨inter_isTree hN hD iha.1 ihb.1, fun e => inter_isTreeC hN hD (iha.2 e) (ihb.2 e)⟩
  | map f _ ih => exact ⟨map_isTree f ih.1, fun e => map_isTreeC f (ih.2 e)⟩
  | multiInter content hne hcap _ ih =>
    have := multiInter_isTree hne hcap (fun s hs => (ih s hs).1)
    exact ⟨this.isTree, fun _ => this⟩
  | multiUnion content hcfg hD hcap _ ih =>
    exact ⟨multiUnion_isTree hcfg hD hcap (fun s hs => (ih s hs).2 rfl), fun e => by cases e⟩
  | fold init f _ ih =>
    rw [foldImpl_eq]
    exact ⟨map_isTree _ ih.1, fun e => map_isTreeC _ (ih.2 e)⟩

/-! ### Concrete sources: `exD` (keys 5, 64, 200, after `exOps`) and `exU` -/

/-- A SparseTree of the same width and depth as `exD`, with keys 5 and 4095 (after `exOpsB`). -/
def exU : Sparse.ST Nat :=
  match Sparse.run 1 2 (Sparse.default Nat 1 2 none) exOpsB with
  | .ok r => r.1
  | .error _ => Sparse.default Nat 1 2 none

theorem exU_history : SparseHistory 1 2 (none : Option Nat) exOpsB := by
  refine .of_small ⟨by decide, by decide, by decide⟩ (by decide) ?_
  intro op h
  simp only [exOpsB, List.mem_cons, List.not_mem_nil, or_false] at h
  rcases h with rfl | rfl | rfl <;> simp [Sparse.Op.Ok] <;> decide

theorem exU_reached : SparseReached 1 2 none exOpsB exU := by
  obtain ⟨t, e1, -⟩ := exU_history.reachCap (Sparse.idxCap_ok 2) exU_history.fits
  refine ⟨(Sparse.specRun none emptyMap exOpsB).2, ?_⟩
  have : exU = t := by unfold exU; rw [e1]
  rw [this]; exact e1

/-- The meaning of `exD`. -/
def exDM : Nat → Option Nat := (Dense.specRun emptyMap exOps).1
/-- The meaning of `exU`. -/
def exUM : Nat → Option Nat := (Sparse.specRun none emptyMap exOpsB).1

theorem exD_built : Built true (Dense.impl Nat 2) exD exDM := .dense exOps_history exD_reached
theorem exU_built : Built true (Sparse.impl Nat 1 2) exU exUM := .sparse exU_history exU_reached

theorem exDs_built : ∀ s ∈ [exD, exD, exD], Built true (Dense.impl Nat 2) s exDM := by
  intro s hs
  simp only [List.mem_cons, List.not_mem_nil, or_false, or_self] at hs
  rw [hs]; exact exD_built

/-- `union(exD, exU)`, used below. -/
abbrev exUnion := unionImpl (Dense.impl Nat 2) (Sparse.impl Nat 1 2)

theorem exUnion_built : Built true exUnion (exD, exU) (unionMap exDM exUM) :=
  .union rfl rfl exD_built exU_built

example : listing 4096 exDM = [(5, 56), (64, 72), (200, 202)] ∧ listing 4096 exUM = [(5, 2), (4095, 3)] := by
  decide +kernel

section
variable {x y : Bool} {S C δ : Type} {I : Impl S C δ} {s : S} {M : Nat → Option δ}

/-- **C41**: `get` of every expression is its pointwise meaning, and iteration lists exactly that
content in ascending order. The other theorems below hold of every expression, too. -/
theorem C41_compositions (h : Built x I s M) : GetIterIs I s M := getIter (built_isTree h).1

/-- `map(intersection(union(exD, exU), exD), |((a, b), c)| (b, c))`. -/
example : Built true (mapImpl (interImpl exUnion (Dense.impl Nat 2)) fun e => (e.1.2, e.2))
      ((exD, exU), exD)
      (fun i => (interMap (unionMap exDM exUM) exDM i).map fun e => (e.1.2, e.2)) ∧
    (mapImpl (interImpl exUnion (Dense.impl Nat 2)) fun e => (e.1.2, e.2)).iterRun
      ((exD, exU), exD) 9 4 =
      .ok [some (5, (some 2, 56)), some (64, (none, 72)), some (200, (none, 202)), none] :=
  ⟨.map _ (.inter rfl rfl exUnion_built exD_built), by decide +kernel⟩

/-- **C27**: there is a number of search rounds that suffices for every call of `next` (each
call terminates); then, for every `n`, the first `n` calls of `next` on `iter()` return the content
in ascending index order, each index once with its value, then `None`. No call panics or has
undefined behaviour. (`listing_spec` says what a listing is.) -/
theorem C27_iter (h : Built x I s M) :
    ∃ F, ∀ fuel, F ≤ fuel → ∀ n, I.iterRun s fuel n =
      .ok ((List.range n).map (fun k => (listing (width I.N ^ I.D) M)[k]?)) :=
  contract_iter (built_isTree h).1

example : Built true exUnion (exD, exU) (unionMap exDM exUM) ∧
    exUnion.iterRun (exD, exU) 9 5 = .ok [some (5, (some 56, some 2)), some (64, (some 72, none)),
      some (200, (some 202, none)), some (4095, (none, some 3)), none] :=
  ⟨exUnion_built, by decide +kernel⟩

/-- **C28**: after the last element every call of `next` returns `None`, for any number of calls. -/
theorem C28_fused (h : Built x I s M) :
    ∃ F, ∀ fuel, F ≤ fuel → ∀ k, ∃ os, I.iterRun s fuel ((listing (width I.N ^ I.D) M).length + k) =
      .ok (os ++ List.replicate k none) ∧ os = (listing (width I.N ^ I.D) M).map some :=
  contract_fused (built_isTree h).1

example : exUnion.iterRun (exD, exU) 9 9 = .ok ((listing 4096 (unionMap exDM exUM)).map some ++
    List.replicate 5 none) := by decide +kernel

/-- **C29**: where `get` is `Some(v)`, `get_unchecked` returns `v` (and stays in bounds). -/
theorem C29_get_unchecked (h : Built x I s M) {i : Nat} {v : δ} (hg : I.get s i = .ok (some v)) :
    I.getU s i = .ok v := contract_get_unchecked (built_isTree h).1 hg

example : exUnion.get (exD, exU) 64 = .ok (some (some 72, none)) ∧
    exUnion.getU (exD, exU) 64 = .ok (some 72, none) := by decide +kernel

/-- **C30, C29**: there is one assignment `B` of masks to paths (satisfying `MaskSpec`: terminal
masks are the present indices; a bit is set if something is stored below it; below an unset bit
everything is empty) such that after *any* legal history of checked and unchecked selects on one
cursor, re-positioning at will, every select has returned the mask of the path it selected – so the
result depends only on the path, not on the history – and at a terminal path
`data_unchecked(k)` returns the value of every present `k`. -/
theorem C30_cursor (h : Built x I s M) :
    ∃ B, MaskSpec (width I.N) I.D I.exact M B ∧ ∃ c0, I.new s = .ok c0 ∧
      ∀ moves, LegalMoves (width I.N) I.D B none moves →
        ∃ masks c, runMoves I s c0 moves = .ok (masks, c) ∧
          MasksAre I.N B masks (movePaths none moves) ∧
          ∀ p, (movePaths none moves).getLast? = some p → p.length + 1 = I.D →
            ∀ k v, k < width I.N → M (unpath (width I.N) (p ++ [k])) = some v →
              I.curDataU c s k = .ok v := contract_cursor (built_isTree h).1

/-- Two visits of the node of keys 0..63 of `union(exD, exU)` with another one between (the moves are
legal: see the example at the end of this file): equal masks. -/
example : (do
    let c ← exUnion.new (exD, exU)
    let r ← runMoves exUnion (exD, exU) c
      [⟨true, 0, 0⟩, ⟨false, 1, 0⟩, ⟨true, 1, 63⟩, ⟨true, 1, 0⟩]
    return (r.1, ← exUnion.curDataU r.2 (exD, exU) 5) : R _) =
    .ok ([[0x800000000000000b], [0x20], [0x8000000000000000], [0x20]], (some 56, some 2)) := by
  decide +kernel

/-- **C39**, for expressions without `multi_union` outside of `multi_intersection` (`Built true`):
after any legal history of selects ending with a checked one at a terminal node, the cursor's checked
`data(k)` is the tree's `get` at that index. For `multi_union` it is false (`C39_fails`). -/
theorem C39_cursor_data_partial (h : Built true I s M) :
    ∃ B, MaskSpec (width I.N) I.D I.exact M B ∧ ∃ c0, I.new s = .ok c0 ∧
      ∀ moves last, LegalMoves (width I.N) I.D B none (moves ++ [last]) → last.checked = true →
        ∃ masks c p, runMoves I s c0 (moves ++ [last]) = .ok (masks, c) ∧
          MasksAre I.N B masks (movePaths none (moves ++ [last])) ∧
          (movePaths none (moves ++ [last])).getLast? = some p ∧
          (p.length + 1 = I.D → ∀ k, k < width I.N →
            I.curData c s k = .ok (M (unpath (width I.N) (p ++ [k])))) :=
  contract_cursor_data ((built_isTree h).2 rfl)

example : (do
    let c ← exUnion.new (exD, exU)
    let r ← runMoves exUnion (exD, exU) c [⟨true, 0, 0⟩, ⟨true, 1, 1⟩]
    return (← exUnion.curData r.2 (exD, exU) 0, ← exUnion.curData r.2 (exD, exU) 5) : R _) =
    .ok (some (some 72, none), none) := by decide +kernel

/-- **C40**: if the tree type declares `EXACT_HIERARCHY = true` then every set bit of every mask
returned by any legal history of selects leads to a present index. (False for DenseTrees materialized
from inexact expressions, which are not in `Built`: `C40_fails_materialized`.) -/
theorem C40_exact_partial (h : Built x I s M) (hex : I.exact = true) :
    ∃ B, MaskSpec (width I.N) I.D I.exact M B ∧ ∃ c0, I.new s = .ok c0 ∧
      ∀ moves, LegalMoves (width I.N) I.D B none moves →
        ∃ masks c, runMoves I s c0 moves = .ok (masks, c) ∧
          ∀ (n : Nat) m p j, masks[n]? = some m → (movePaths none moves)[n]? = some p →
            m.bit j = true → ∃ q, ValidPath (width I.N) (p ++ j :: q) ∧
              (p ++ j :: q).length = I.D ∧ (M (unpath (width I.N) (p ++ j :: q))).isSome = true :=
  contract_exact (built_isTree h).1 hex

example : exUnion.exact = true ∧ (interImpl (Dense.impl Nat 2) (Sparse.impl Nat 1 2)).exact = false :=
  ⟨rfl, rfl⟩

/-- **C33**: `map(a, f)`. -/
theorem C33_map {ε : Type} (f : δ → ε) (h : Built x I s M) :
    GetIterIs (mapImpl I f) s (fun i => (M i).map f) := C41_compositions (.map f h)

example : (mapImpl (Dense.impl Nat 2) (· * 2)).iterRun exD 9 4 =
    .ok [some (5, 112), some (64, 144), some (200, 404), none] := by decide +kernel

/-- **C36**: `multi_map_fold(init, m, f)` over any multi-tree expression. -/
theorem C36_fold {β δ' : Type} {J : Impl S C (List δ')} {A : Nat → Option (List δ')} (init : β)
    (f : β → δ' → β) (h : Built x J s A) :
    GetIterIs (foldImpl J init f) s (fun i => (A i).map (fun vs => vs.foldl f init)) :=
  C41_compositions (.fold init f h)

example : Built false (multiUnionImpl (Dense.impl Nat 2)) [exD, exD, exD]
      (multiUnionMap [exDM, exDM, exDM]) ∧
    (foldImpl (multiUnionImpl (Dense.impl Nat 2)) 1 (· + ·)).iterRun [exD, exD, exD] 9 4 =
      .ok [some (5, 169), some (64, 217), some (200, 607), none] :=
  ⟨.multiUnion (ss := [exD, exD, exD]) (fun _ => exDM) (Dense.validCfg (by decide) (by decide))
    (by decide) (by decide) exDs_built, by decide +kernel⟩

/-- **C50**, masks: in a tree with exact hierarchy the masks returned by any legal sequence of selects
are given by the stored keys alone (`exactMask`); being legal, too, is a matter of the keys. -/
theorem C50_masks (h : Built x I s M) (hex : I.exact = true) :
    ∃ c0, I.new s = .ok c0 ∧
      ∀ moves, LegalMoves (width I.N) I.D (exactMask (width I.N) I.D M) none moves →
        ∃ masks c, runMoves I s c0 moves = .ok (masks, c) ∧
          MasksAre I.N (exactMask (width I.N) I.D M) masks (movePaths none moves) :=
  contract_masks (built_isTree h).1 hex

example : exactMask 64 2 (unionMap exDM exUM) [] 63 = true ∧
    exactMask 64 2 (unionMap exDM exUM) [3] 8 = true := by
  decide +kernel

/-- **C50**: two tree expressions with exact hierarchy of the same width and depth, of whatever types,
with the same content: `get` agrees at every `usize`, iteration agrees, and every legal sequence of
selects returns the same masks. -/
theorem C50_same_content {S' C' : Type} {I' : Impl S' C' δ} {s' : S'} {M' : Nat → Option δ}
    (h : Built x I s M) (h' : Built y I' s' M') (hN : I.N = I'.N) (hD : I.D = I'.D)
    (hex : I.exact = true) (hex' : I'.exact = true)
    (hM : ∀ i, i < width I.N ^ I.D → M i = M' i) :
    (∀ i, I.get s i = I'.get s' i) ∧
    (∃ F, ∀ fuel, F ≤ fuel → ∀ n, I.iterRun s fuel n = I'.iterRun s' fuel n) ∧
    ∃ c0 c0', I.new s = .ok c0 ∧ I'.new s' = .ok c0' ∧
      ∀ moves, LegalMoves (width I.N) I.D (exactMask (width I.N) I.D M) none moves →
        ∃ masks c c', runMoves I s c0 moves = .ok (masks, c) ∧
          runMoves I' s' c0' moves = .ok (masks, c') :=
  contract_same_content (built_isTree h).1 (built_isTree h').1 hN hD hex hex' hM

/-- The union with the sources swapped and the values swapped back. -/
example : (∀ i, exUnion.get (exD, exU) i =
    (mapImpl (unionImpl (Sparse.impl Nat 1 2) (Dense.impl Nat 2)) Prod.swap).get (exU, exD) i) :=
  (C50_same_content exUnion_built
    (.map Prod.swap (.union (I0 := Sparse.impl Nat 1 2) (I1 := Dense.impl Nat 2) rfl rfl exU_built exD_built))
    rfl rfl rfl rfl (fun i _ => by
      simp only [unionMap]; cases exDM i <;> cases exUM i <;> rfl)).1

/-- **C42**: materializing any tree expression that has exact hierarchy, 64-bit masks, depth
at most 9 and fewer than 2^32 elements succeeds and gives a DenseTree whose `get` agrees with the
source's for *every* index (in range or not), whose iteration is the source's, whose `key_values()`
are the content in ascending key order, and which is fully usable: it behaves as the source's map
under every further history and can be dropped. (It is again an expression: `Built.materialized`.) -/
theorem C42_materialize_exact (h : Built x I s M) (hN : I.N = 1) (hex : I.exact = true)
    (h9 : I.D ≤ 9) (hroom : card (64 ^ I.D) M < 2 ^ 32) :
    ∃ t, Dense.materialize I s = .ok t ∧
      (∀ k, (Dense.impl δ I.D).get t k = I.get s k) ∧
      (∃ F, ∀ fuel, F ≤ fuel → ∀ n, (Dense.impl δ I.D).iterRun t fuel n = I.iterRun s fuel n) ∧
      Dense.keyValues t = .ok (keysOf (64 ^ I.D) M, (valuesOf (64 ^ I.D) M).map some) ∧
      UsableDense I.D t (restrict (64 ^ I.D) M) :=
  contract_materialize_exact (built_isTree h).1 hN hex h9 hroom

example : (do
    let t ← Dense.materialize exUnion (exD, exU)
    Dense.keyValues t : R _) =
    .ok ([5, 64, 200, 4095], [some (some 56, some 2), some (some 72, none), some (some 202, none),
      some (none, some 3)]) := by decide +kernel

/-- **C43**, the part that holds: materializing any tree expression without exact
hierarchy (64-bit masks, depth at most 9, fewer than 2^32 elements), gives an equal readable DenseTree
(`ReadableDense`) that also behaves as the map under every further history that leaves the set of
occupied blocks of 64 keys unchanged (`BlockUsableDense`); at depth 1 it is fully usable. The only exception is that the depth is at least 2
and the content is empty, when it may be undefined behaviour instead.

Missing from C43: an empty result always (`C43_fails_empty_root`, `C43_fails_empty`), exactness
(`C40_fails_materialized`) and, at depth ≥ 2, later histories that occupy a new block
(`C43_fails_insert`) or empty one (`C43_fails_remove`). -/
theorem C43_materialize_partial (h : Built x I s M) (hN : I.N = 1) (hex : I.exact = false)
    (h9 : I.D ≤ 9) (hroom : card (64 ^ I.D) M < 2 ^ 32) :
    (∃ t, Dense.materialize I s = .ok t ∧ ReadableDense I s M t ∧
      BlockUsableDense I.D t (restrict (64 ^ I.D) M) ∧
      (I.D = 1 → UsableDense I.D t (restrict (64 ^ I.D) M))) ∨
    (Dense.materialize I s = .error .ub ∧ 2 ≤ I.D ∧ ∀ k, k < 64 ^ I.D → M k = none) :=
  contract_materialize (built_isTree h).1 hN hex h9 hroom

/-- `intersection(exD, exU)` has no exact hierarchy; here the result is readable. -/
example : (interImpl (Dense.impl Nat 2) (Sparse.impl Nat 1 2)).exact = false ∧
    Built true (interImpl (Dense.impl Nat 2) (Sparse.impl Nat 1 2)) (exD, exU) (interMap exDM exUM) ∧
    (do
      let t ← Dense.materialize (interImpl (Dense.impl Nat 2) (Sparse.impl Nat 1 2)) (exD, exU)
      return (← (Dense.impl _ 2).get t 5, ← (Dense.impl _ 2).get t 64) : R _) =
      .ok (some (56, 2), none) := ⟨rfl, .inter rfl rfl exD_built exU_built, by decide +kernel⟩

end

section
variable {x y : Bool} {S0 C0 δ0 S1 C1 δ1 : Type} {I0 : Impl S0 C0 δ0} {I1 : Impl S1 C1 δ1} {a : S0}
  {b : S1} {A : Nat → Option δ0} {B : Nat → Option δ1}

/-- **C31**: `union(a, b)` of trees with equal depth and node width. -/
theorem C31_union (hN : I0.N = I1.N) (hD : I0.D = I1.D) (ha : Built true I0 a A)
    (hb : Built true I1 b B) : GetIterIs (unionImpl I0 I1) (a, b) (unionMap A B) :=
  C41_compositions (.union hN hD ha hb)

example : GetIterIs exUnion (exD, exU) (unionMap exDM exUM) ∧
    unionMap exDM exUM 5 = some (some 56, some 2) :=
  ⟨C31_union rfl rfl exD_built exU_built, by decide⟩

/-- **C32**: `intersection(a, b)` of trees with equal depth and node width. -/
theorem C32_intersection (hN : I0.N = I1.N) (hD : I0.D = I1.D) (ha : Built x I0 a A)
    (hb : Built y I1 b B) : GetIterIs (interImpl I0 I1) (a, b) (interMap A B) :=
  contract_intersection hN hD (built_isTree ha).1 (built_isTree hb).1

example : GetIterIs (interImpl (Dense.impl Nat 2) (Sparse.impl Nat 1 2)) (exD, exU)
      (interMap exDM exUM) ∧
    (interImpl (Dense.impl Nat 2) (Sparse.impl Nat 1 2)).iterRun (exD, exU) 9 2 =
      .ok [some (5, (56, 2)), none] :=
  ⟨C32_intersection rfl rfl exD_built exU_built, by decide +kernel⟩

/-- **C52**, dot product, for any two expressions of equal width and depth: summing the iteration of
`intersection(a, b).map(|(x, y)| x * y)` gives `Σ_k a[k]·b[k]`, absent entries counting as zero. -/
theorem C52_dot {I0 : Impl S0 C0 Int} {I1 : Impl S1 C1 Int} {A B : Nat → Option Int}
    (hN : I0.N = I1.N) (hD : I0.D = I1.D) (ha : Built x I0 a A) (hb : Built y I1 b B) :
    ∃ F, ∀ fuel, F ≤ fuel → ∀ n, width I0.N ^ I0.D ≤ n → ∃ os,
      (mapImpl (interImpl I0 I1) fun e => e.1 * e.2).iterRun (a, b) fuel n = .ok os ∧
      ((itemsOf os).map (·.2)).sum =
        ((List.range (width I0.N ^ I0.D)).map fun k => (A k).getD 0 * (B k).getD 0).sum :=
  contract_dot hN hD (built_isTree ha).1 (built_isTree hb).1

example : (mapImpl (interImpl (mapImpl (Dense.impl Nat 2) Int.ofNat)
      (mapImpl (Sparse.impl Nat 1 2) Int.ofNat)) fun e => e.1 * e.2).iterRun (exD, exU) 9 2 =
      .ok [some (5, 112), none] ∧
    ((List.range 100).map fun k =>
      ((exDM k).map Int.ofNat).getD 0 * ((exUM k).map Int.ofNat).getD 0).sum = 112 := by
  decide +kernel

end

section
variable {x : Bool} {S C δ : Type} {I : Impl S C δ} {ss : List S} {content : S → Nat → Option δ}

/-- **C34**: `multi_union` of 0 to 32 trees of depth at least 2. (Depth 1: see `C34_depth1`.) -/
theorem C34_multi_union (hcfg : ValidCfg I.N I.D) (hD : 2 ≤ I.D) (hcap : ss.length ≤ 32)
    (h : ∀ s ∈ ss, Built true I s (content s)) :
    GetIterIs (multiUnionImpl I) ss (multiUnionMap (ss.map content)) :=
  C41_compositions (.multiUnion content hcfg hD hcap h)

example : GetIterIs (multiUnionImpl (Dense.impl Nat 2)) [exD, exD, exD]
      (multiUnionMap [exDM, exDM, exDM]) ∧ multiUnionMap [exDM, exDM, exDM] 5 = some [56, 56, 56] :=
  ⟨C34_multi_union (ss := [exD, exD, exD]) (content := fun _ => exDM)
    (Dense.validCfg (by decide) (by decide)) (by decide) (by decide) exDs_built, by decide⟩

/-- **C35**: `multi_intersection` of 1 to 32 trees. -/
theorem C35_multi_intersection (hne : ss ≠ []) (hcap : ss.length ≤ 32)
    (h : ∀ s ∈ ss, Built x I s (content s)) :
    GetIterIs (multiInterImpl I) ss (multiInterMap (ss.map content)) :=
  contract_multi_intersection hne hcap (fun s hs => (built_isTree (h s hs)).1)

example : GetIterIs (multiInterImpl (Dense.impl Nat 2)) [exD, exD, exD]
      (multiInterMap [exDM, exDM, exDM]) ∧ multiInterMap [exDM, exDM, exDM] 5 = some [56, 56, 56] ∧
    multiInterMap [exDM, exUM] 64 = none :=
  ⟨C35_multi_intersection (ss := [exD, exD, exD]) (content := fun _ => exDM) (by decide) (by decide)
    exDs_built, by decide, by decide⟩

/-- **C56**, `get_unchecked` of `multi_union`, at a present index. -/
theorem C56_union_unchecked (hcfg : ValidCfg I.N I.D) (hD : 2 ≤ I.D)
    (hcap : ss.length ≤ 32) (h : ∀ s ∈ ss, Built true I s (content s)) {sh : List S → Nat × Option Nat}
    (hsh : HintOk sh) {k : Nat} (hk : k < width I.N ^ I.D) (hk' : k < 2 ^ 64 - 1) {vs : List δ}
    (hv : multiUnionMap (ss.map content) k = some vs) :
    ∃ li, levelIndices I.N I.D k = .ok li ∧ copyIndices I.D li = .ok li ∧
      (muDataIter (fun s => I.data s k li) sh).Yields ss vs :=
  contract_union_unchecked hcfg hD hcap (fun s hs => (built_isTree (h s hs)).2 rfl) hsh hk hk' hv

/-- The iterator of `get_unchecked(5)` over `[exD, empty, exD]`, with the source hint of
`slice::Iter`: the values, then `None` for ever; the hint never underestimates. -/
example : (do
    let e ← Dense.default Nat 2
    let li ← levelIndices 1 2 5
    let V := muDataIter (fun s => (Dense.impl Nat 2).data s 5 li) fun l => (l.length, some l.length)
    let r ← V.calls 4 [exD, e, exD]
    return (r.1, V.hint [exD, e, exD]) : R _) = .ok ([some 56, some 56, none, none], (0, some 3)) := by
  decide +kernel

/-- **C56**, `get_unchecked` of `multi_intersection`, at a present index. With an exact source hint
(`slice::Iter`) the hint stays exact. -/
theorem C56_intersection_unchecked_partial (hne : ss ≠ [])
    (hcap : ss.length ≤ 32) (h : ∀ s ∈ ss, Built x I s (content s)) {sh : List S → Nat × Option Nat}
    (hsh : HintOk sh) {k : Nat} (hk : k < width I.N ^ I.D) (hk' : k < 2 ^ 64 - 1) {vs : List δ}
    (hv : multiInterMap (ss.map content) k = some vs) :
    ∃ li, levelIndices I.N I.D k = .ok li ∧ copyIndices I.D li = .ok li ∧
      (miDataIter (fun s => I.dataU s k li) sh).Yields ss vs ∧
      ((∀ l, sh l = (l.length, some l.length)) →
        (miDataIter (fun s => I.dataU s k li) sh).ExactLen ss vs.length) :=
  contract_intersection_unchecked hne hcap (fun s hs => (built_isTree (h s hs)).1) hsh hk hk' hv

example : (do
    let li ← levelIndices 1 2 5
    let V := miDataIter (fun s => (Dense.impl Nat 2).dataU s 5 li) fun l => (l.length, some l.length)
    let r ← V.calls 3 [exD, exD]
    return (r.1, V.hint [exD, exD]) : R _) = .ok ([some 56, some 56, none], (2, some 2)) := by
  decide +kernel

/-- **C56** for `multi_map_fold` over `multi_union`: with the iterators' own `fold` methods the result
is the left fold of the present values, in `get`, `get_unchecked` and in iteration. -/
theorem C56_fold_union {β : Type} (hcfg : ValidCfg I.N I.D)
    (hD : 2 ≤ I.D) (hcap : ss.length ≤ 32) (h : ∀ s ∈ ss, Built true I s (content s))
    (sh : List S → Nat × Option Nat) (init : β) (f : β → δ → β) :
    let E := fun i => (multiUnionMap (ss.map content) i).map (fun vs => vs.foldl f init)
    GetIterIs (foldUnionImpl I sh init f) ss E ∧
    ∀ i v, (foldUnionImpl I sh init f).get ss i = .ok (some v) →
      (foldUnionImpl I sh init f).getU ss i = .ok v := by
  have := contract_fold_union hcfg hD hcap (fun s hs => (built_isTree (h s hs)).2 rfl) sh init f
  exact ⟨getIter this, fun i v hg => contract_get_unchecked this hg⟩

example : (do
    let F := foldUnionImpl (Dense.impl Nat 2) (fun l => (l.length, some l.length)) 0 fun b v => 10 * b + v
    return (← F.get [exD, exD, exD] 5, ← F.getU [exD, exD, exD] 5, ← F.iterRun [exD, exD, exD] 9 2) : R _) =
    .ok (some 6216, 6216, [some (5, 6216), some (64, 7992)]) := by decide +kernel

/-- **C56** for `multi_map_fold` over `multi_intersection`. -/
theorem C56_fold_intersection {β : Type} (hne : ss ≠ [])
    (hcap : ss.length ≤ 32) (h : ∀ s ∈ ss, Built x I s (content s))
    (sh : List S → Nat × Option Nat) (init : β) (f : β → δ → β) :
    let E := fun i => (multiInterMap (ss.map content) i).map (fun vs => vs.foldl f init)
    GetIterIs (foldInterImpl I sh init f) ss E ∧
    ∀ i v, (foldInterImpl I sh init f).get ss i = .ok (some v) →
      (foldInterImpl I sh init f).getU ss i = .ok v := by
  have := contract_fold_intersection hne hcap (fun s hs => (built_isTree (h s hs)).1) sh init f
  exact ⟨getIter this, fun i v hg => contract_get_unchecked this hg⟩

example : (do
    let F := foldInterImpl (Dense.impl Nat 2) (fun l => (l.length, some l.length)) 0 fun b v => 10 * b + v
    return (← F.get [exD, exD, exD] 5, ← F.getU [exD, exD, exD] 5, ← F.iterRun [exD, exD, exD] 9 2) : R _) =
    .ok (some 6216, 6216, [some (5, 6216), some (64, 7992)]) := by decide +kernel

end

/-! ## Non-vacuity: concrete expressions -/

/-- A DenseTree with the content of `exOps` (keys 5, 64, 200). -/
theorem exDense : ∃ (t : Dense.DT Nat) (M : Nat → Option Nat), Built true (Dense.impl Nat 2) t M ∧
    M 5 = some 56 ∧ M 64 = some 72 ∧ M 200 = some 202 ∧ M 4095 = none := by
  obtain ⟨t, ht⟩ := dense_reached exOps_history
  exact ⟨t, _, .dense exOps_history ht, by decide, by decide, by decide, by decide⟩

/-- A SparseTree of the same width and depth, with keys 5 and 4095. -/
theorem exSparse : ∃ (t : Sparse.ST Nat) (M : Nat → Option Nat), Built true (Sparse.impl Nat 1 2) t M ∧
    M 5 = some 2 ∧ M 64 = none ∧ M 4095 = some 3 := by
  have h : SparseHistory 1 2 (none : Option Nat) exOpsB := by
    refine .of_small ⟨by decide, by decide, by decide⟩ (by decide) ?_
    intro op h
    simp only [exOpsB, List.mem_cons, List.not_mem_nil, or_false] at h
    rcases h with rfl | rfl | rfl <;> simp [Sparse.Op.Ok] <;> decide
  exact ⟨_, _, .sparse h ⟨_, rfl⟩, by decide, by decide, by decide⟩

/-- A nested expression over a DenseTree `t` and a SparseTree `u`:
`fold(multi_intersection([map(t), map(t)]))` united with `intersection(t, u)`. -/
example : ∃ (t : Dense.DT Nat) (u : Sparse.ST Nat)
    (E : Nat → Option (Option Nat × Option (Nat × Nat))),
    Built true (unionImpl
      (foldImpl (multiInterImpl (mapImpl (Dense.impl Nat 2) (· * 2))) 0 (· + ·))
      (interImpl (Dense.impl Nat 2) (Sparse.impl Nat 1 2))) ([t, t], (t, u)) E ∧
    E 5 = some (some 224, some (56, 2)) ∧ E 64 = some (some 288, none) ∧ E 4095 = none := by
  obtain ⟨t, M, h, e1, e2, -, e4⟩ := exDense
  obtain ⟨u, M', h', f1, f2, f3⟩ := exSparse
  refine ⟨t, u, _, .union rfl rfl
    (.fold 0 (· + ·) (.multiInter (fun _ i => (M i).map (· * 2)) (by simp) (by simp) ?_))
    (.inter rfl rfl h h'), ?_, ?_, ?_⟩
  · intro s hs
    simp only [List.mem_cons, List.not_mem_nil, or_false, or_self] at hs
    rw [hs]
    exact .weaken (.map _ h)
  · simp [unionMap, interMap, multiInterMap, e1, f1]
  · simp [unionMap, interMap, multiInterMap, e2, f2]
  · simp [unionMap, interMap, multiInterMap, e4]

/-- `multi_union` of three DenseTrees, and the materialization of `union(t, u)` after a removal:
an expression again. -/
example : ∃ (t : Dense.DT Nat) (E : Nat → Option (List Nat)),
    Built false (multiUnionImpl (Dense.impl Nat 2)) [t, t, t] E ∧ E 5 = some [56, 56, 56] ∧
    E 4095 = none ∧
    ∃ (w : Dense.DT (Option Nat × Option Nat)) (W : Nat → Option (Option Nat × Option Nat)),
      Built true (Dense.impl _ 2) w W ∧ W 5 = none ∧ W 64 = some (some 72, none) ∧
      W 4095 = some (none, some 3) := by
  obtain ⟨t, M, h, e1, e2, -, e4⟩ := exDense
  obtain ⟨u, M', h', f1, f2, f3⟩ := exSparse
  refine ⟨t, _, .multiUnion (fun _ => M) (Dense.validCfg (by decide) (by decide)) (by decide) (by simp)
    ?_, ?_, ?_, ?_⟩
  · intro s hs
    simp only [List.mem_cons, List.not_mem_nil, or_false, or_self] at hs
    rw [hs]; exact h
  · simp [multiUnionMap, e1]
  · simp [multiUnionMap, e4]
  · have hU := Built.union (I0 := Dense.impl Nat 2) (I1 := Sparse.impl Nat 1 2) rfl rfl h h'
    have hroom : card (64 ^ (unionImpl (Dense.impl Nat 2) (Sparse.impl Nat 1 2)).D) (unionMap M M') <
      2 ^ 32 := Nat.lt_of_le_of_lt (card_le _ _) (by decide)
    obtain ⟨w, g1, -, -, -, g5⟩ := C42_materialize_exact hU rfl rfl (by decide) hroom
    have hl : LaterHistory (unionImpl (Dense.impl Nat 2) (Sparse.impl Nat 1 2)).D
        (restrict (64 ^ (unionImpl (Dense.impl Nat 2) (Sparse.impl Nat 1 2)).D) (unionMap M M'))
        [.remove 5] :=
      ⟨by simp [Dense.Op.InRange, unionImpl, Dense.impl], Dense.bounded_of_depth (by decide) _ _,
        fun _ _ => Nat.le_refl 2⟩
    obtain ⟨w', k1, -⟩ := g5 _ hl
    refine ⟨w', _, .materialized hU rfl rfl (by decide) hroom g1 hl k1, ?_, ?_, ?_⟩
    · simp [Dense.specRun, Dense.Op.spec, put]
    · simp [Dense.specRun, Dense.Op.spec, put, restrict, unionMap, e2, f2, unionImpl, Dense.impl]
    · simp [Dense.specRun, Dense.Op.spec, put, restrict, unionMap, e4, f3, unionImpl, Dense.impl]

/-- Descending to the terminal node of keys 0..63 of `union(t, u)` and on to another one is a legal
sequence of moves for whatever masks `C30_cursor` finds. -/
example : ∃ (t : Dense.DT Nat) (u : Sparse.ST Nat) (M : Nat → Option (Option Nat × Option Nat)),
    Built true (unionImpl (Dense.impl Nat 2) (Sparse.impl Nat 1 2)) (t, u) M ∧
    ∀ B, MaskSpec 64 2 true M B →
      LegalMoves 64 2 B none [⟨true, 0, 0⟩, ⟨false, 1, 0⟩, ⟨true, 1, 63⟩] := by
  obtain ⟨t, M, h, e1, -⟩ := exDense
  obtain ⟨u, M', h', -⟩ := exSparse
  refine ⟨t, u, _, .union rfl rfl h h', fun B hB => ?_⟩
  refine ⟨⟨by decide, fun _ => rfl, fun n h => by cases h⟩, ⟨by decide, fun h => (by cases h),
    fun n h => ?_⟩, ⟨by decide, fun h => (by cases h), fun n h => ?_⟩, trivial⟩
  · cases h
    refine ⟨by decide, [], rfl, by decide, fun _ => ?_⟩
    refine hB.below [] 0 (by decide) ⟨[5], ?_, rfl, ?_⟩
    · intro x hx; simp at hx; rcases hx with rfl | rfl <;> decide
    · show (unionMap M M' 5).isSome = true
      simp [unionMap, e1]
  · cases h
    exact ⟨by decide, [0], rfl, by decide, fun h => by cases h⟩

end Hibit.Props
