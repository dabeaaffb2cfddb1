import Verif.Levels
/-!
# Property C63: the two level storages are interchangeable block allocators

`runLv` runs any sequence of calls (allocate, give back, overwrite) on one of the two storages; `GoodUse`
(`Verif/Levels.lean`) is the specification of an allocator that never hands out a block in use.
-/
namespace Hibit.Props
open Hibit Hibit.Sparse

/-- **C63**: for every sequence of calls in which the caller gives back only blocks it owns and has emptied
and writes only blocks it owns, `IntrusiveListLevel` and `Level`, both new, return the same
results without undefined behaviour; each allocation returns an index that is not 0 and not in use; at the end
every owned block has the content the caller left in it in both, block 0 is empty in both, and both
have the same number of blocks. -/
theorem C63_same_allocator {N : Nat} (hN : 0 < N) (ops : List LvOp)
    (hl : LegalUse N (PLevel.default N) (fun _ => none) ops) (hb : ops.length < 2 ^ 64 - 1) :
    ∃ I P os G, runLv (Level.stepLv N) (Level.default N false) ops = .ok (I, os) ∧
      runLv (PLevel.stepLv N) (PLevel.default N) ops = .ok (P, os) ∧
      GoodUse N (fun _ => none) ops os G ∧
      (∀ i b, G i = some b → I.blocks[i]? = some b ∧ P.blocks[i]? = some b) ∧
      I.blocks[0]? = some (Block.empty N) ∧ P.blocks[0]? = some (Block.empty N) ∧
      I.blocks.length = P.blocks.length := by
  obtain ⟨I, P, os, G, e1, e2, g, h⟩ := LvRel.run hN ops (LvRel.init N) hl
    (by simp [PLevel.default]; omega)
  exact ⟨I, P, os, G, e1, e2, g, fun i b hi => ⟨(h.owned i b hi).1, (h.owned i b hi).2.1⟩,
    h.zeroI, h.zeroP, h.len⟩

/-- **C63**: a fresh allocation is empty, whoever used the block before, in both storages: it follows a
legal history and returns the index of an empty block. -/
theorem C63_alloc_empty {N : Nat} (hN : 0 < N) (ops : List LvOp)
    (hl : LegalUse N (PLevel.default N) (fun _ => none) (ops ++ [.alloc]))
    (hb : ops.length < 2 ^ 64 - 2) :
    ∃ I P os i, runLv (Level.stepLv N) (Level.default N false) (ops ++ [.alloc]) = .ok (I, os ++ [some i]) ∧
      runLv (PLevel.stepLv N) (PLevel.default N) (ops ++ [.alloc]) = .ok (P, os ++ [some i]) ∧
      I.blocks[i]? = some (Block.empty N) ∧ P.blocks[i]? = some (Block.empty N) := by
  obtain ⟨I, P, os, G, e1, e2, g, h, -⟩ := C63_same_allocator hN _ hl (by simp; omega)
  have key : ∀ (ops : List LvOp) (os : List (Option Nat)) (G0 : Owned),
      GoodUse N G0 (ops ++ [.alloc]) os G →
      ∃ os' i, os = os' ++ [some i] ∧ G i = some (Block.empty N) := by
    intro ops
    induction ops with
    | nil =>
      intro os G0 g
      match os, g with
      | [o], ⟨_, g2, g3⟩ =>
        obtain ⟨i, rfl, -⟩ := g2 rfl
        refine ⟨[], i, rfl, ?_⟩
        have g3 : G0.after N .alloc (some i) = G := g3
        rw [← g3]
        simp [Owned.after]
      | _ :: _ :: _, ⟨_, _, g3⟩ => exact g3.elim
    | cons op ops ih =>
      intro os G0 g
      match os, g with
      | o :: os, ⟨_, _, g3⟩ =>
        obtain ⟨os', i, rfl, hi⟩ := ih _ _ g3
        exact ⟨o :: os', i, rfl, hi⟩
  obtain ⟨os', i, rfl, hi⟩ := key ops os _ g
  exact ⟨I, P, os', i, e1, e2, (h i _ hi).1, (h i _ hi).2⟩

/-- A history for the examples: three blocks, the second filled, emptied and given back, the third
given back, two more allocations. -/
def exLv : List LvOp :=
  [.alloc, .alloc, .write 2 ⟨[5#64], List.replicate 64 7⟩, .alloc, .free 3, .write 2 (Block.empty 1), .free 2,
    .alloc, .alloc, .alloc]

/-- The hypotheses of C63 are met, and blocks are reused in last-in-first-out order. -/
example : LegalUse 1 (PLevel.default 1) (fun _ => none) exLv ∧ exLv.length < 2 ^ 64 - 2 ∧
    ∃ P, runLv (PLevel.stepLv 1) (PLevel.default 1) exLv =
      .ok (P, [some 1, some 2, none, some 3, none, none, none, some 2, some 3, some 4]) := by
  refine ⟨?_, by decide, ⟨_, rfl⟩⟩
  unfold exLv
  repeat' first
    | exact trivial
    | (refine ⟨?_, fun l' o e => ?_⟩; rotate_left; cases e)
    | rfl
    | exact ⟨fun h => (by cases h), rfl⟩

end Hibit.Props
