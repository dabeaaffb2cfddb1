import Verif.Threads.Local
/-!
# Blocks that are only read

A program may read the blocks of trees it has borrowed, and must not change them.
-/
namespace Hibit.Threads
open Hibit Hibit.Dense Hibit.Bytes

/-- The address of the block that the access writes to, frees or moves. -/
def Act.target : Act → Option Nat
  | .store (.heap a) _ _ _ => some a
  | .move (.heap a) _ _ _ _ => some a
  | .free (.heap a) _ => some a
  | .realloc (.heap a) _ _ => some a
  | _ => none

/-- The access leaves the blocks at the addresses `Z` as they are. -/
def Act.spares (Z : Nat → Bool) (a : Act) : Bool :=
  match a.target with
  | some x => !Z x
  | none => true

/-- The program `p`, except that it fails where it would change a block at an address in `Z`. -/
def Prog.guard {β : Type} (Z : Nat → Bool) : Prog β → Prog β
  | .ret b => .ret b
  | .err e => .err e
  | .act a k => if a.spares Z then .act a (fun r => (k r).guard Z) else .err .ub

/-- The program needs nothing but the blocks `m`, never fails, changes no block in `Z`, and reaches `Q`. -/
def SafeF {β : Type} (Z : Nat → Bool) (p : Prog β) (m : Mem) (Q : β → Mem → Prop) : Prop := Safe (p.guard Z) m Q

section
variable {β γ : Type} {Z : Nat → Bool}

theorem guard_bind (p : Prog β) (f : β → Prog γ) :
    (p >>= f).guard Z = p.guard Z >>= fun b => (f b).guard Z := by
  induction p with
  | ret b => rfl
  | err e => rfl
  | act a k ih =>
    show (if a.spares Z then Prog.act a (fun r => (k r >>= f).guard Z) else .err .ub) =
      (if a.spares Z then Prog.act a (fun r => (k r).guard Z) else .err .ub) >>= _
    by_cases h : a.spares Z
    · rw [if_pos h, if_pos h]
      simp only [ih]
      rfl
    · rw [if_neg h, if_neg h]
      rfl

theorem guard_lift (x : R β) : (Prog.lift x).guard Z = Prog.lift x := by cases x <;> rfl

theorem SafeF.act {a : Act} {k : a.Ans → Prog β} {m : Mem} {Q : β → Mem → Prop}
    (h : SafeF Z (.act a k) m Q) : a.Can m ∧ a.spares Z = true ∧ ∀ r m', a.Own m r m' → SafeF Z (k r) m' Q := by
  unfold SafeF at h
  by_cases hs : a.spares Z
  · rw [show (Prog.act a k).guard Z = .act a (fun r => (k r).guard Z) from if_pos hs] at h
    exact ⟨h.1, hs, h.2⟩
  · rw [show (Prog.act a k).guard Z = .err .ub from if_neg hs] at h
    exact h.elim

/-- The program only loads. -/
def Loads : Prog β → Prop
  | .ret _ => True
  | .err _ => True
  | .act a k => (∃ p off size align, a = .load p off size align) ∧ ∀ r, Loads (k r)

theorem Loads.guard {p : Prog β} (h : Loads p) (Z : Nat → Bool) : p.guard Z = p := by
  induction p with
  | ret b => rfl
  | err e => rfl
  | act a k ih =>
    show (if a.spares Z then Prog.act a (fun r => (k r).guard Z) else .err .ub) = _
    have hs : a.spares Z = true := by
      obtain ⟨p, off, size, align, rfl⟩ := h.1
      rfl
    rw [if_pos hs]
    congr 1
    funext r
    exact ih r (h.2 r)

theorem Loads.bind {f : β → Prog γ} (hf : ∀ b, Loads (f b)) : ∀ {p : Prog β}, Loads p → Loads (p >>= f)
  | .ret b, _ => hf b
  | .err _, _ => trivial
  | .act _ _, h => ⟨h.1, fun r => Loads.bind hf (h.2 r)⟩

theorem Loads.ret {b : β} : Loads (.ret b) := trivial
theorem Loads.lift {x : R β} : Loads (Prog.lift x) := by cases x <;> trivial
theorem Loads.rd (p : Ptr) (off size align : Nat) : Loads (rd p off size align) := ⟨⟨_, _, _, _, rfl⟩, fun _ => trivial⟩

theorem getMask_loads (p : Ptr) : Loads (getMask p) :=
  Loads.bind (fun _ => Loads.bind (fun _ => Loads.ret) Loads.lift) (Loads.rd _ _ _ _)
theorem contains_loads (p : Ptr) (i : Nat) : Loads (contains p i) :=
  Loads.bind (fun _ => Loads.lift) (getMask_loads p)
theorem denseOf_loads (p : Ptr) (i : Nat) : Loads (denseOf p i) :=
  Loads.bind (fun _ => Loads.lift) (getMask_loads p)
theorem getChildPtr_loads (p : Ptr) (i : Nat) : Loads (getChildPtr p i) :=
  Loads.bind (fun _ => Loads.bind (fun _ => Loads.lift) (Loads.rd _ _ _ _)) (denseOf_loads p i)
theorem getChildIdx_loads (p : Ptr) (i : Nat) : Loads (getChildIdx p i) :=
  Loads.bind (fun _ => Loads.bind (fun _ => Loads.lift) (Loads.rd _ _ _ _)) (denseOf_loads p i)

/-- An access that spares `Z` leaves the blocks there as they are. -/
theorem own_spares {a : Act} {m m' : Mem} {r : a.Ans} (hs : a.spares Z = true) (ho : a.Own m r m')
    (hz : ∀ x, Z x = true → m x ≠ none) {x : Nat} (hx : Z x = true) : m' x = m x := by
  have ne : ∀ y, a.target = some y → x ≠ y := by
    intro y hy e
    unfold Act.spares at hs
    rw [hy] at hs
    subst e
    simp [hx] at hs
  cases a with
  | load p off size align => obtain ⟨b, -, -, rfl⟩ := ho; rfl
  | store p off align v =>
    obtain ⟨y, b, b', rfl, -, -, rfl⟩ := ho
    exact upd_other _ _ (ne y rfl)
  | move p sr ds si al =>
    obtain ⟨y, b, b', rfl, -, -, rfl⟩ := ho
    exact upd_other _ _ (ne y rfl)
  | alloc size =>
    obtain ⟨h1, rfl⟩ := ho
    refine upd_other _ _ fun e => ?_
    have h1 : m r = none := h1
    rw [← show x = r from e] at h1
    exact hz x hx h1
  | free p size =>
    obtain ⟨y, b, rfl, -, -, rfl⟩ := ho
    exact upd_other _ _ (ne y rfl)
  | realloc p size newSize =>
    obtain ⟨y, b, rfl, -, -, h1, rfl⟩ := ho
    have hy := ne y rfl
    have : x ≠ r := by
      intro e
      rcases h1 with h1 | h1
      · exact hy (e.trans h1)
      · have h1 : m r = none := h1
        rw [← show x = r from e] at h1
        exact hz x hx h1
    rw [upd_other _ _ this, upd_other _ _ hy]

end
end Hibit.Threads
