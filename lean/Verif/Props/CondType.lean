import Verif.CondType
/-!
# Property C75: `CondType`

The specification of a `CondType<B, T, F>` is an ordinary value of type `T` if `B` is true and of type `F` if
it is false (`Plain`). User code (closures, `Default`, `Clone`) has effects on a state `σ` and may panic
(`EM`).
-/
namespace Hibit.Props
open Hibit Hibit.Cond

section
variable {T F σ : Type}

/-- The type the field has: `T` if true, `F` otherwise. -/
def Plain (T F : Type) : Bool → Type
  | true => T
  | false => F

/-- How the caller sees a plain value through `get`. -/
def Plain.either : {b : Bool} → Plain T F b → Cond.Either T F
  | true, v => .true v
  | false, v => .false v

/-- What `m` does, if its result (when it returns) is wrapped. -/
def wrapped {A B : Type} (m : EM σ A) (w : A → B) : EM σ B := fun z => do
  let (o, z) ← m z
  match o with
  | .returned a => return (.returned (w a), z)
  | .panicked => return (.panicked, z)

/-- The closure of the two that belongs to the chosen type. -/
def chosen : {b : Bool} → EM σ T → EM σ F → EM σ (Plain T F b)
  | true, f, _ => f
  | false, _, g => g

/-- Holding a plain value: what `get` shows is the value. -/
def CondHolds (b : Bool) (s : Slot T F) (v : Plain T F b) : Prop := Cond.get b s = .ok v.either

/-- The slot of a plain value. -/
def slotOf : {b : Bool} → Plain T F b → Slot T F
  | true, v => .isT v
  | false, v => .isF v

theorem slotOf_holds {b : Bool} (v : Plain T F b) : CondHolds b (slotOf v) v := by
  cases b <;> rfl

theorem holds_iff {b : Bool} {s : Slot T F} {v : Plain T F b} : CondHolds b s v ↔ s = slotOf v := by
  unfold CondHolds
  cases b <;> cases s <;> simp [Cond.get, readT, readF, slotOf, Plain.either] <;>
    constructor <;> intro h <;> cases h <;> rfl

/-- **C75**, construction: `new` runs the closure of the chosen type exactly once and never the other one,
with the same effects and the same panics as calling it directly; the result holds its value. Reading
uninitialised memory or memory of the other type never happens. `default` is the same with
the two `Default` implementations. -/
theorem C75_new (b : Bool) (f : EM σ T) (g : EM σ F) :
    Cond.new b f g = wrapped (chosen (b := b) f g) slotOf ∧
      Cond.default b f g = wrapped (chosen (b := b) f g) slotOf ∧
      ∀ v : Plain T F b, CondHolds b (slotOf v) v := by
  have key : Cond.new b f g = wrapped (chosen (b := b) f g) slotOf := by
    funext z
    cases b with
    | true =>
      simp only [Cond.new, if_true, wrapped, chosen]
      simp only [EM.bind_apply, bind_assoc_R]
      show (do let r ← f z; _) = _
      cases h : f z with
      | error e => rfl
      | ok r =>
        obtain ⟨o, z'⟩ := r
        cases o <;> rfl
    | false =>
      simp only [Cond.new, Bool.false_eq_true, if_false, wrapped, chosen]
      simp only [EM.bind_apply, bind_assoc_R]
      show (do let r ← g z; _) = _
      cases h : g z with
      | error e => rfl
      | ok r =>
        obtain ⟨o, z'⟩ := r
        cases o <;> rfl
  exact ⟨key, key, slotOf_holds⟩

/-- **C75**, `From` and the public field: a `CondType` made from a value holds that value. -/
theorem C75_from (v : T) (w : F) :
    CondHolds (T := T) (F := F) true (Cond.fromT v) v ∧ CondHolds (T := T) (F := F) false (Cond.fromF w) w :=
  ⟨rfl, rfl⟩

/-- **C75**, cloning: for a `CondType` that holds a value, `clone` clones that value, once, with the `Clone`
implementation of its own type, and the result holds the clone; the `unreachable_unchecked` arms are
never reached. -/
theorem C75_clone {b : Bool} {s : Slot T F} {v : Plain T F b} (h : CondHolds b s v) (f : T → EM σ T)
    (g : F → EM σ F) :
    Cond.clone b s f g =
      wrapped (match b, v with
        | true, v => f v
        | false, v => g v : EM σ (Plain T F b)) slotOf := by
  rw [holds_iff] at h
  subst h
  unfold Cond.clone
  rw [(C75_new b _ _).1]
  cases b <;> rfl

/-- **C75**, assignment through `get_mut`: the caller replaces the value by `g` of it (same variant), and the
`CondType` then holds the new value. -/
theorem C75_get_mut {b : Bool} {s : Slot T F} {v : Plain T F b} (h : CondHolds b s v)
    (g : Cond.Either T F → Cond.Either T F) (w : Plain T F b) (hg : g v.either = w.either) :
    ∃ s', Cond.getMut b s g = .ok s' ∧ CondHolds b s' w := by
  rw [holds_iff] at h
  subst h
  refine ⟨slotOf w, ?_, slotOf_holds w⟩
  cases b with
  | true =>
    change T at v w
    have hg : g (.true v) = .true w := hg
    simp only [Cond.getMut, slotOf, readT, bind_ok, if_true, hg, pure_eq_ok]
  | false =>
    change F at v w
    have hg : g (.false v) = .false w := hg
    simp only [Cond.getMut, slotOf, readF, bind_ok, Bool.false_eq_true, if_false, hg, pure_eq_ok]

/-- A closure that counts its calls in the state and returns `v`; the third call panics. -/
def counting {A : Type} (v : A) : EM (Nat × Nat) A := fun z =>
  if z.1 < 2 then .ok (.returned v, (z.1 + 1, z.2)) else .ok (.panicked, (z.1 + 1, z.2))

/-- A closure that must not be called. -/
def forbidden {A : Type} : EM (Nat × Nat) A := fun _ => .error .ub

example : (do
    let (o, z) ← Cond.new true (counting 7) (forbidden (A := Bool)) (0, 0)
    match o with
    | .returned s => return (some (← Cond.get true s), z)
    | .panicked => return (none, z) : R _) = .ok (some (.true 7), (1, 0)) := by decide +kernel

example : (do
    let (o, z) ← Cond.clone true (.isT 7 : Slot Nat Bool) (fun v => counting (v + 1)) (fun _ => forbidden) (2, 0)
    match o with
    | .returned s => return (some (← Cond.get true s), z)
    | .panicked => return (none, z) : R _) = .ok (none, (3, 0)) := by decide +kernel

example : CondHolds (T := Nat) (F := Bool) false (.isF true) true ∧
    (do let s ← Cond.getMut false (.isF true : Slot Nat Bool) (fun _ => .false false)
        Cond.get false s) = .ok (.false false) := ⟨rfl, by decide⟩

end

end Hibit.Props
