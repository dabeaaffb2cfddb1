import Verif.Closures
/-!
# `CondType`: a field whose type is chosen at compile time

`src/const_utils/cond_type.rs:1-110` and `src/const_utils/const_bool.rs:6-32`. `CondType<B, T, F>` is a
field of type `T` if `B::VALUE` is true and of type `F` otherwise; all its accessors go through
untyped pointers.
-/
namespace Hibit.Cond
open Hibit

/-- The bytes of a `CondType<B, T, F>`: nothing written yet, or the bytes of a `T` or of an `F`.
Simplification: a value of the one type is never also a valid value of the other; reading it as the other
type is undefined behaviour. -/
inductive Slot (T F : Type) where
  | uninit
  | isT (v : T)
  | isF (v : F)
deriving DecidableEq, Repr

/-- cond_type.rs:5-8 `enum Either` -/
inductive Either (T F : Type) where
  | true (v : T)
  | false (v : F)
deriving DecidableEq, Repr

variable {T F σ : Type}

/-- `(p as *mut T).write(v)` (cond_type.rs:71-72) -/
def writeT (_ : Slot T F) (v : T) : Slot T F := .isT v

/-- `(p as *mut F).write(v)` (cond_type.rs:74-75) -/
def writeF (_ : Slot T F) (v : F) : Slot T F := .isF v

/-- `p.as_ref()` of a `NonNull<T>` (cond_type.rs:84-85) -/
def readT : Slot T F → R T
  | .isT v => .ok v
  | _ => .error .ub

/-- `p.as_ref()` of a `NonNull<F>` (cond_type.rs:87-88) -/
def readF : Slot T F → R F
  | .isF v => .ok v
  | _ => .error .ub

/-- cond_type.rs:78 `this.assume_init()`: the memory must hold a `B::Conditional<T, F>`
(const_bool.rs:9, 22, 30). -/
def assumeInit (b : Bool) (s : Slot T F) : R (Slot T F) := do
  if b then
    let _ ← readT s
    return s
  else
    let _ ← readF s
    return s

/-- cond_type.rs:63-79 `CondType::new(true_fn, false_fn)` -/
def new (b : Bool) (trueFn : EM σ T) (falseFn : EM σ F) : EM σ (Slot T F) := do
  let this : Slot T F := .uninit
  let this ← (if b then do
    let v ← trueFn
    pure (writeT this v)
  else do
    let v ← falseFn
    pure (writeF this v))
  EM.lift (assumeInit b this)

/-- cond_type.rs:81-90 `get` -/
def get (b : Bool) (s : Slot T F) : R (Either T F) := do
  if b then
    let v ← readT s
    return .true v
  else
    let v ← readF s
    return .false v

/-- cond_type.rs:92-101 `get_mut`, with the caller replacing the value referred to by `g` of it. -/
def getMut (b : Bool) (s : Slot T F) (g : Either T F → Either T F) : R (Slot T F) := do
  if b then
    let v ← readT s
    match g (.true v) with
    | .true v => return .isT v
    | .false _ => return s     -- the caller cannot change the variant through the reference
  else
    let v ← readF s
    match g (.false v) with
    | .false v => return .isF v
    | .true _ => return s

/-- cond_type.rs:17-22 `From<T> for CondType<ConstTrue, T, F>` -/
def fromT (v : T) : Slot T F := .isT v

/-- cond_type.rs:24-29 `From<F> for CondType<ConstFalse, T, F>` -/
def fromF (v : F) : Slot T F := .isF v

/-- cond_type.rs:30-39 `Default` -/
def default (b : Bool) (defaultT : EM σ T) (defaultF : EM σ F) : EM σ (Slot T F) :=
  new b defaultT defaultF

/-- cond_type.rs:41-59 `Clone`; `unreachable_unchecked` is undefined behaviour. -/
def clone (b : Bool) (s : Slot T F) (cloneT : T → EM σ T) (cloneF : F → EM σ F) : EM σ (Slot T F) :=
  new b
    (do
      let e ← EM.lift (get b s)
      match e with
      | .true v => cloneT v
      | .false _ => EM.lift (.error .ub))
    (do
      let e ← EM.lift (get b s)
      match e with
      | .false v => cloneF v
      | .true _ => EM.lift (.error .ub))

/-! ## Lemmas -/

theorem EM.bind_apply {A B : Type} (m : EM σ A) (f : A → EM σ B) (z : σ) :
    (m >>= f) z = (do
      let (o, z) ← m z
      match o with
      | .returned a => f a z
      | .panicked => return (.panicked, z)) := rfl

end Hibit.Cond
