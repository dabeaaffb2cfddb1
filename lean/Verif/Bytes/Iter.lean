import Verif.Bytes.Mat
import Verif.Dense.Panic
/-!
# Iteration and panicking insertions over byte memory

`iterRun_sim`: iteration of the byte tree follows iteration of the cell tree, whether or not the tree obeys
the contract. `getOrInsertPanic`: `get_or_insert` with a `T::default()` that panics.
-/
namespace Hibit.Bytes
open Hibit Hibit.Dense

/-! ## Iteration -/

section
variable {σ τ : Type} {Q : σ → τ → Prop} {v : σ → Nat → R (σ × Bool)} {w : τ → Nat → R (τ × Bool)}

theorem constForRev_sim (frm : Nat)
    (hv : ∀ s t i, Q s t → Sim (fun x y => Q x.1 y.1 ∧ x.2 = y.2) (v s i) (w t i)) :
    ∀ (to : Nat) (s : σ) (t : τ), Q s t →
      Sim (fun x y => Q x.1 y.1 ∧ x.2 = y.2) (constForRev frm to v s) (constForRev frm to w t)
  | 0, s, t, q => Sim.ok ⟨q, rfl⟩
  | n + 1, s, t, q => by
    unfold constForRev iterateAsRangeRev
    refine Sim.bind (hv s t n q) fun x y hxy => ?_
    obtain ⟨x, bx⟩ := x
    obtain ⟨y, by'⟩ := y
    obtain ⟨q', rfl⟩ := hxy
    cases bx with
    | true => exact Sim.ok ⟨q', rfl⟩
    | false =>
      refine Sim.ite (fun h => by cases h) fun _ => ?_
      exact Sim.ite (fun _ => Sim.ok ⟨q', rfl⟩) fun _ => constForRev_sim frm hv n x y q'

end

section
variable {α : Type} {ρ : Ren} {F : Mem} {t : DT α} {bt : BT α} (D : Nat)

/-- Iterators correspond. -/
structure ItRel (ρ : Ren) (x y : IterSt Cursor) : Prop where
  iters : y.iters = x.iters
  lidx : y.lidx = x.lidx
  cur : CurRel ρ x.cur y.cur

theorem iterVisit_sim (T : TRep ρ F t bt) (x y : IterSt Cursor) (i : Nat) (q : ItRel ρ x y) :
    Sim (fun a b => ItRel ρ a.1 b.1 ∧ a.2 = b.2) ((Dense.impl α D).iterVisit t x i)
      ((impl α D).iterVisit bt y i) := by
  obtain ⟨q1, q2, q3⟩ := q
  unfold Impl.iterVisit
  simp only [q1, q2]
  refine Sim.same fun it _ => ?_
  refine Sim.same fun p _ => ?_
  obtain ⟨o, it'⟩ := p
  refine Sim.same fun iters _ => ?_
  cases o with
  | none => exact Sim.ok ⟨⟨rfl, rfl, q3⟩, rfl⟩
  | some index =>
    refine Sim.same fun lidx _ => ?_
    refine Sim.bind (curSelectU_sim T q3 (i + 1) index) fun a b hab => ?_
    obtain ⟨m, c⟩ := a
    obtain ⟨m', c'⟩ := b
    obtain ⟨rfl, hc⟩ := hab
    exact Sim.same fun iters _ => Sim.ok ⟨⟨rfl, rfl, hc⟩, rfl⟩

theorem iterLoop_sim (T : TRep ρ F t bt) : ∀ (fuel : Nat) (x y : IterSt Cursor), ItRel ρ x y →
    Sim (fun a b => a.1 = b.1 ∧ ItRel ρ a.2 b.2) ((Dense.impl α D).iterLoop t fuel x)
      ((impl α D).iterLoop bt fuel y)
  | 0, _, _, _ => Sim.err
  | fuel + 1, x, y, q => by
    obtain ⟨q1, q2, q3⟩ := q
    unfold Impl.iterLoop
    simp only [q1]
    refine Sim.same fun it _ => ?_
    refine Sim.same fun p _ => ?_
    obtain ⟨o, it'⟩ := p
    cases o with
    | some index => exact Sim.ok ⟨rfl, rfl, q2, q3⟩
    | none =>
      refine Sim.bind (constForRev_sim 0 (fun s t i => iterVisit_sim D T s t i) (D - 1) _ _
        ⟨rfl, q2, q3⟩) fun a b hab => ?_
      obtain ⟨a, ba⟩ := a
      obtain ⟨b, bb⟩ := b
      obtain ⟨q', rfl⟩ := hab
      exact Sim.ite (fun _ => iterLoop_sim T fuel a b q') fun _ => Sim.ok ⟨rfl, q'⟩

theorem iterTake_sim (T : TRep ρ F t bt) (fuel : Nat) : ∀ (n : Nat) (x y : IterSt Cursor), ItRel ρ x y →
    Sim Eq ((Dense.impl α D).iterTake t fuel n x) ((impl α D).iterTake bt fuel n y)
  | 0, _, _, _ => Sim.ok rfl
  | n + 1, x, y, q => by
    unfold Impl.iterTake
    have hn : Sim (fun a b => a.1 = b.1 ∧ ItRel ρ a.2 b.2) ((Dense.impl α D).iterNext t fuel x)
        ((impl α D).iterNext bt fuel y) := by
      unfold Impl.iterNext
      refine Sim.bind (iterLoop_sim D T fuel x y q) fun a b hab => ?_
      obtain ⟨o, a⟩ := a
      obtain ⟨o', b⟩ := b
      obtain ⟨rfl, q'⟩ := hab
      cases o with
      | none => exact Sim.ok ⟨rfl, q'⟩
      | some i =>
        refine Sim.bind (curDataU_sim D T q'.cur i) fun d d' e => ?_
        subst e
        rw [show b.lidx = a.lidx from q'.lidx]
        exact Sim.same fun idx _ => Sim.ok ⟨rfl, q'⟩
    refine Sim.bind hn fun a b hab => ?_
    obtain ⟨o, a⟩ := a
    obtain ⟨o', b⟩ := b
    obtain ⟨rfl, q'⟩ := hab
    refine Sim.bind (iterTake_sim T fuel n a b q') fun r r' e => ?_
    subst e
    exact Sim.ok rfl

/-- Iteration over bytes shows what iteration over cells shows. -/
theorem iterRun_sim (T : TRep ρ F t bt) (fuel n : Nat) :
    Sim Eq ((Dense.impl α D).iterRun t fuel n) ((impl α D).iterRun bt fuel n) := by
  unfold Impl.iterRun
  refine Sim.bind (Q := ItRel ρ) ?_ fun a b q => iterTake_sim D T fuel n a b q
  unfold Impl.iterNew
  refine Sim.bind (Q := CurRel ρ) (Sim.ok (CurRel.new _)) fun c c' K => ?_
  refine Sim.bind (curSelectU_sim T K 0 0) fun a b hab => ?_
  obtain ⟨m, c⟩ := a
  obtain ⟨m', c'⟩ := b
  obtain ⟨rfl, hc⟩ := hab
  exact Sim.ite (fun _ => Sim.err) fun _ => Sim.ok ⟨rfl, rfl, hc⟩

end

/-! ## A default that panics -/

/-- dense_tree.rs:178-184 `get_or_insert` with a `T::default()` that panics, over byte memory
(`Dense.getOrInsertPanic`). -/
def getOrInsertPanic {α : Type} (D : Nat) (t : BT α) (index : Nat) : R (BT α × Option α) := do
  let index ← indexFrom 1 D index
  let indices ← levelIndices 1 D index
  let w ← insertWalk D t indices
  let nodePtr ← w.read
  let innerIndex ← unwrapU indices.getLast?
  let c ← contains w.heap nodePtr innerIndex
  let t := { t with heap := w.heap, root := w.root }
  if c then
    let i ← getChildIdx w.heap nodePtr innerIndex
    let old ← getU t.data i
    let old ← unwrapU old
    return (t, some old)
  else return (t, none)

theorem getOrInsertPanic_sim {α : Type} {ρ : Ren} {F : Mem} {t : DT α} {bt : BT α} (D : Nat)
    (T : TRep ρ F t bt) (index : Nat) : SimW ρ (StepRel F) (Dense.getOrInsertPanic D t index)
      (getOrInsertPanic D bt index) := by
  unfold Dense.getOrInsertPanic getOrInsertPanic
  refine Sim.same fun index _ => ?_
  refine Sim.same fun indices _ => ?_
  refine SimW.bind (insertWalk_sim D indices T) fun ρ' w bw le W => ?_
  refine Sim.bind (read_sim W) fun p p' hp => ?_
  refine Sim.same fun i _ => ?_
  refine Sim.bind2 (contains_sim W.heap hp i) fun c c' e => ?_
  subst e
  refine Sim.ite (fun _ => ?_) fun _ => ?_
  · refine Sim.bind2 (getChildIdx_sim W.heap hp i) fun d d' e => ?_
    subst e
    simp only [T.data]
    refine Sim.same fun old _ => ?_
    refine Sim.same fun old _ => ?_
    exact SimW.ok ⟨⟨W.heap, W.root, rfl, T.keys⟩, rfl⟩
  · exact SimW.ok ⟨⟨W.heap, W.root, T.data, T.keys⟩, rfl⟩

end Hibit.Bytes
