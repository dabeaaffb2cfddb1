/-!
# Shared vocabulary of the model

`R α` is the result of running a piece of (possibly `unsafe`) Rust.
-/
namespace Hibit

/-- How a run of the modelled Rust can go wrong.
* `panic` – a Rust panic (assert, unwrap, `unreachable!`, `todo!`, debug overflow check);
* `ub` – undefined behaviour (unchecked index out of bounds, use after free, read of
  uninitialised memory, `unwrap_unchecked` on `None`, deallocation with a wrong layout, ...);
* `fuel` – the model's loop bound was hit (a modelling artefact, excluded by the theorems). -/
inductive Err where
  | panic
  | ub
  | fuel
deriving DecidableEq, Repr

/-- Result of modelled Rust code. -/
abbrev R (α : Type) := Except Err α

instance instDecEqR {ε α : Type} [DecidableEq ε] [DecidableEq α] : DecidableEq (Except ε α)
  | .ok a, .ok b => if h : a = b then isTrue (h ▸ rfl) else isFalse (fun e => h (by cases e; rfl))
  | .error a, .error b =>
      if h : a = b then isTrue (h ▸ rfl) else isFalse (fun e => h (by cases e; rfl))
  | .ok _, .error _ => isFalse (fun e => by cases e)
  | .error _, .ok _ => isFalse (fun e => by cases e)

/-- `slice.get_unchecked(i)` / raw pointer read: out of bounds is undefined behaviour. -/
def getU {α : Type} (l : List α) (i : Nat) : R α :=
  match l[i]? with
  | some a => .ok a
  | none => .error .ub

/-- `slice[i]`: out of bounds panics. -/
def getP {α : Type} (l : List α) (i : Nat) : R α :=
  match l[i]? with
  | some a => .ok a
  | none => .error .panic

/-- `*slice.get_unchecked_mut(i) = a`: out of bounds is undefined behaviour. -/
def setU {α : Type} (l : List α) (i : Nat) (a : α) : R (List α) :=
  if i < l.length then .ok (l.set i a) else .error .ub

/-- `opt.unwrap_unchecked()`. -/
def unwrapU {α : Type} : Option α → R α
  | some a => .ok a
  | none => .error .ub

@[simp] theorem bind_ok {α β : Type} (a : α) (f : α → R β) :
    ((Except.ok a : R α) >>= f) = f a := rfl
@[simp] theorem bind_err {α β : Type} (e : Err) (f : α → R β) :
    ((Except.error e : R α) >>= f) = .error e := rfl
@[simp] theorem pure_eq_ok {α : Type} (a : α) : (pure a : R α) = .ok a := rfl

theorem getU_ok {α : Type} {l : List α} {i : Nat} (h : i < l.length) : getU l i = .ok l[i] := by
  simp [getU, List.getElem?_eq_getElem h]

theorem getU_some {α : Type} {l : List α} {i : Nat} {a : α} (h : l[i]? = some a) :
    getU l i = .ok a := by
  simp [getU, h]

theorem getP_some {α : Type} {l : List α} {i : Nat} {a : α} (h : l[i]? = some a) :
    getP l i = .ok a := by
  simp [getP, h]

theorem setU_ok {α : Type} {l : List α} {i : Nat} (a : α) (h : i < l.length) :
    setU l i a = .ok (l.set i a) := by
  simp [setU, h]

/-! ## Inversion of successful runs -/

theorem bind_inv {β γ : Type} {x : R β} {f : β → R γ} {c : γ} (h : x >>= f = .ok c) :
    ∃ b, x = .ok b ∧ f b = .ok c := by
  cases x with
  | error e => cases h
  | ok b => exact ⟨b, rfl, h⟩

theorem getU_inv {β : Type} {l : List β} {i : Nat} {x : β} (h : getU l i = .ok x) :
    l[i]? = some x := by
  unfold getU at h
  split at h
  · cases h; assumption
  · cases h

theorem setU_inv {β : Type} {l l' : List β} {i : Nat} {x : β} (h : setU l i x = .ok l') :
    l' = l.set i x ∧ i < l.length := by
  unfold setU at h
  split at h
  · cases h; exact ⟨rfl, by assumption⟩
  · cases h

theorem unwrapU_inv {β : Type} {o : Option β} {x : β} (h : unwrapU o = .ok x) : o = some x := by
  unfold unwrapU at h
  split at h <;> cases h
  rfl

end Hibit
