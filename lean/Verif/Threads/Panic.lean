import Verif.Threads.Local
import Verif.Bytes.Iter
/-!
# A panicking `T::default()`, access by access

`get_or_insert` whose `T::default()` panics when it is called, and operations with an index out of range.
-/
namespace Hibit.Threads
open Hibit Hibit.Dense Hibit.Bytes

/-! ## Model -/

/-- dense_tree.rs:119-184 `get_or_insert` with a `T::default()` that panics if it is called (line 168: the nodes on the
path have been made by then), as `Bytes.getOrInsertPanic`. -/
def getOrInsertPanic {α : Type} (D : Nat) (t : Tree α) (index : Nat) : Prog (Tree α × Option α) := do
  let index ← Prog.lift (indexFrom 1 D index)
  let indices ← Prog.lift (levelIndices 1 D index)
  let w ← insertWalk D t.root indices
  let nodePtr ← w.read
  let innerIndex ← Prog.lift (unwrapU indices.getLast?)
  let c ← contains nodePtr innerIndex
  if c then
    let i ← getChildIdx nodePtr innerIndex
    let old ← Prog.lift (getU t.data i)
    let old ← Prog.lift (unwrapU old)
    return (⟨w.root, t.data, t.keys⟩, some old)
  else return (⟨w.root, t.data, t.keys⟩, none)

/-! ## Refinement -/

section
variable {α : Type}

theorem getOrInsertPanic_ref (D : Nat) (t : BT α) (index : Nat) :
    Ref (getOrInsertPanic D (ofBT t) index) t.heap (Bytes.getOrInsertPanic D t index)
      (fun r => ((ofBT r.1, r.2), r.1.heap)) := by
  unfold getOrInsertPanic Bytes.getOrInsertPanic
  refine Ref.lift fun index _ => ?_
  refine Ref.lift fun indices _ => ?_
  refine Ref.bind (insertWalk_ref D t indices) fun w _ => ?_
  refine Ref.bind (read_ref w) fun p _ => ?_
  refine Ref.lift fun i _ => ?_
  refine Ref.bind (contains_ref p i) fun c _ => ?_
  refine Ref.ite (fun _ => ?_) fun _ => Ref.ok rfl
  refine Ref.bind (getChildIdx_ref p i) fun j _ => ?_
  refine Ref.lift fun old _ => ?_
  exact Ref.lift fun old _ => Ref.ok rfl

theorem getOrInsertPanic_most {D : Nat} (hD : 1 ≤ D) (t : Tree α) (index : Nat) :
    AtMost (20 * D) (getOrInsertPanic D t index) := by
  unfold getOrInsertPanic
  refine AtMost.priv fun index => ?_
  refine AtMost.priv fun indices => AtMost.seq (20 * (D - 1)) 15 (AtMost.seq (20 * (D - 1)) 0
    (loop_most (insertStep_most D indices) 0 (D - 1) _) (fun _ => AtMost.ret) (by omega)) (fun w => ?_) (by omega)
  refine AtMost.seq 1 14 (read_most w) (fun p => AtMost.priv fun i => AtMost.seq 1 13 (contains_most p i)
    (fun c => AtMost.ite ?_ AtMost.ret) (by omega)) (by omega)
  exact AtMost.seq 2 0 (getChildIdx_most p i) (fun j => AtMost.priv fun _ => AtMost.priv fun _ => AtMost.ret) (by omega)

end

end Hibit.Threads
