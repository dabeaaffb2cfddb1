import Verif.Interface
import Verif.ConstFor
/-! # `Iter` (src/iter.rs): the model -/
namespace Hibit

/-- iter.rs:30-43 `Iter`. -/
structure IterSt (Cur : Type) where
  iters : List BitsIter
  lidx : List Nat
  cur : Cur

/-- iter.rs:49-73 `Iter::new`. `level_iters[0]` panics for zero levels. -/
def Impl.iterNew {S Cur δ : Type} (I : Impl S Cur δ) (s : S) : R (IterSt Cur) := do
  let iters := List.replicate I.D (BitsIter.empty I.N)
  let cur ← I.new s
  let (rootMask, cur) ← I.selectU cur s 0 0
  if iters.length = 0 then .error .panic
  else
    return ⟨iters.set 0 (intoBitsIter rootMask), List.replicate (I.D - 1) (usizeMod - 1), cur⟩

/-- iter.rs:99-133 the visitor `V::visit` of the upward search. -/
def Impl.iterVisit {S Cur δ : Type} (I : Impl S Cur δ) (s : S) (st : IterSt Cur) (i : Nat) :
    R (IterSt Cur × Bool) := do
  let it ← Hibit.getU st.iters i
  let (o, it') ← it.next
  let iters ← setU st.iters i it'
  match o with
  | some index =>
    let lidx ← setU st.lidx i index
    let (mask, cur) ← I.selectU st.cur s (i + 1) index
    let iters ← setU iters (i + 1) (intoBitsIter mask)
    return (⟨iters, lidx, cur⟩, true)
  | none => return (⟨iters, st.lidx, st.cur⟩, false)

/-- iter.rs:86-139 the `loop` of `next`: `some level_index`, or `none` when exhausted. -/
def Impl.iterLoop {S Cur δ : Type} (I : Impl S Cur δ) (s : S) :
    Nat → IterSt Cur → R (Option Nat × IterSt Cur)
  | 0, _ => .error .fuel
  | fuel + 1, st => do
    let it ← getP st.iters (st.iters.length - 1)
    let (o, it') ← it.next
    let st := { st with iters := st.iters.set (st.iters.length - 1) it' }
    match o with
    | some index => return (some index, st)
    | none =>
      let (st, brk) ← constForRev 0 (I.D - 1) (I.iterVisit s) st
      if brk then I.iterLoop s fuel st else return (none, st)

/-- iter.rs:85-147 `LendingIterator::next`. -/
def Impl.iterNext {S Cur δ : Type} (I : Impl S Cur δ) (s : S) (fuel : Nat) (st : IterSt Cur) :
    R (Option (Nat × δ) × IterSt Cur) := do
  let (o, st) ← I.iterLoop s fuel st
  match o with
  | none => return (none, st)
  | some levelIndex =>
    let d ← I.curDataU st.cur s levelIndex
    let idx ← dataBlockIndex I.N I.D st.lidx levelIndex
    return (some (idx, d), st)

/-- The results of `n` successive calls of `next`. -/
def Impl.iterTake {S Cur δ : Type} (I : Impl S Cur δ) (s : S) (fuel : Nat) :
    Nat → IterSt Cur → R (List (Option (Nat × δ)))
  | 0, _ => .ok []
  | n + 1, st => do
    let (o, st) ← I.iterNext s fuel st
    let rest ← I.iterTake s fuel n st
    return o :: rest

/-- `tree.iter()` followed by `n` calls of `next()`, each running its search loop for at most
`fuel` rounds. -/
def Impl.iterRun {S Cur δ : Type} (I : Impl S Cur δ) (s : S) (fuel n : Nat) :
    R (List (Option (Nat × δ))) := do
  let st ← I.iterNew s
  I.iterTake s fuel n st

end Hibit
