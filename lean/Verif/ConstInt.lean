import Verif.Basic
/-!
# Compile-time integers and arrays: the model

`src/const_utils/const_int.rs:72-118, 122-134, 136-234` and `src/const_utils/const_array.rs:7-40`.
A `ConstInteger` type is its value: 0..9, or `invalid` (= `usize::MAX`, `ConstIntInvalid`).
-/
namespace Hibit

/-- const_int.rs:216-234: the implementors of `ConstInteger`: `ConstUsize<0>` .. `ConstUsize<9>` and
`ConstUsize<usize::MAX>`. -/
inductive CInt where
  | num (n : Fin 10)
  | invalid
deriving DecidableEq

namespace CInt

/-- const_int.rs:77-79 `value` -/
def value : CInt → Nat
  | num n => n.val
  | invalid => 2 ^ 64 - 1

/-- const_int.rs:125-134 `Default for ConstUsize<N>`: panics for `MAX`. The value of a zero-sized type
carries no data: it is the type. -/
def default : CInt → R CInt
  | num n => .ok (num n)
  | invalid => .error .panic

/-- const_int.rs:157, 173, 190, 226 `type Dec` -/
def Dec : CInt → CInt
  | num ⟨0, _⟩ => invalid
  | num ⟨n + 1, h⟩ => num ⟨n, by omega⟩
  | invalid => invalid

/-- const_int.rs:158, 174, 191, 227 `type SatDec` -/
def SatDec : CInt → CInt
  | num ⟨0, _⟩ => num 0
  | num ⟨n + 1, h⟩ => num ⟨n, by omega⟩
  | invalid => invalid

/-- const_int.rs:159, 175, 192, 228 `type Inc` -/
def Inc : CInt → CInt
  | num ⟨n, _⟩ => if h : n + 1 < 10 then num ⟨n + 1, h⟩ else invalid
  | invalid => invalid

/-- const_int.rs:91-93 `dec` -/
def dec (c : CInt) : R CInt := c.Dec.default
/-- const_int.rs:97-99 `inc` -/
def inc (c : CInt) : R CInt := c.Inc.default
/-- const_int.rs:84-87 `sat_dec`: its result type is `Self::Dec`, not `Self::SatDec`. -/
def sat_dec (c : CInt) : R CInt := c.Dec.default

end CInt

/-- utils/array.rs:26-31 `Array::from_fn`: calls `f` for `i, …, i + n - 1` in this order. -/
def arrayFromFn {A : Type} (f : Nat → R A) (i : Nat) : Nat → R (List A)
  | 0 => .ok []
  | n + 1 => do
    let a ← f i
    let as ← arrayFromFn f (i + 1) n
    return a :: as

/-- const_array.rs:25-39 `split_last` of a `[T; N]`, `N ≥ 1` (for `N = 0` the result array has `usize::MAX`
elements). The original is in `ManuallyDrop`: what is not read is leaked, what is read twice is
duplicated. -/
def splitLast {A : Type} (this : List A) : R (List A × A) := do
  let left ← arrayFromFn (getU this) 0 (this.length - 1)
  let right ← match this.getLast? with
    | some a => .ok a
    | none => .error .panic
  return (left, right)

theorem arrayFromFn_getU {A : Type} (this : List A) : ∀ n i, i + n ≤ this.length →
    arrayFromFn (getU this) i n = .ok ((this.drop i).take n)
  | 0, i, _ => by simp [arrayFromFn]
  | n + 1, i, h => by
    have hi : i < this.length := by omega
    rw [arrayFromFn, arrayFromFn_getU this n (i + 1) (by omega)]
    have e : (this.drop i).take (n + 1) = this[i] :: (this.drop (i + 1)).take n := by
      rw [List.drop_eq_getElem_cons hi, List.take_succ_cons]
    rw [e]
    simp [getU, hi, pure_eq_ok, bind_ok]

end Hibit
