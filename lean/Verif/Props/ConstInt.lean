import Verif.ConstInt
/-!
# Property C64: compile-time integers and arrays
-/
namespace Hibit.Props
open Hibit

/-- **C64**, `dec`: one less; `ConstUsize<0>` panics. Stated for every compile-time integer. -/
theorem C64_dec (c : CInt) :
    (∀ n, c.value = n + 1 → n < 9 → ∃ d, c.dec = .ok d ∧ d.value = n) ∧
    (c.value = 0 → c.dec = .error .panic) := by
  cases c with
  | invalid => exact ⟨fun n h h9 => absurd h (by simp [CInt.value]; omega), fun h => absurd h (by decide)⟩
  | num n =>
    obtain ⟨n, hn⟩ := n
    cases n with
    | zero => exact ⟨fun n h => absurd h (by simp [CInt.value]), fun _ => rfl⟩
    | succ n =>
      exact ⟨fun m h _ => ⟨.num ⟨n, by omega⟩, rfl, by simpa [CInt.value] using h⟩,
        fun h => absurd h (by simp [CInt.value])⟩

example : (CInt.num 9).dec = .ok (.num 8) ∧ (CInt.num 0).dec = .error .panic := ⟨rfl, rfl⟩

/-- **C64**, `inc`: one more; `ConstUsize<9>` (the largest) panics. -/
theorem C64_inc (c : CInt) :
    (c.value < 9 → ∃ d, c.inc = .ok d ∧ d.value = c.value + 1) ∧
    (c.value = 9 → c.inc = .error .panic) := by
  cases c with
  | invalid => exact ⟨fun h => absurd h (by decide), fun h => absurd h (by decide)⟩
  | num n =>
    obtain ⟨n, hn⟩ := n
    constructor
    · intro h
      have h : n < 9 := h
      refine ⟨.num ⟨n + 1, by omega⟩, ?_, rfl⟩
      simp [CInt.inc, CInt.Inc, CInt.default, dif_pos (show n + 1 < 10 by omega)]
    · intro h
      have h : n = 9 := h
      subst h
      rfl

example : (CInt.num 0).inc = .ok (.num 1) ∧ (CInt.num 9).inc = .error .panic := ⟨rfl, rfl⟩

/-- **C64**, `inc` and `dec` undo each other wherever neither panics. -/
theorem C64_inverse (c d : CInt) (hc : c ≠ .invalid) (hd : d ≠ .invalid) :
    c.inc = .ok d ↔ d.dec = .ok c := by
  cases c with
  | invalid => exact absurd rfl hc
  | num a =>
    cases d with
    | invalid => exact absurd rfl hd
    | num b =>
      revert a b
      decide

example : (CInt.num 4).inc = .ok (.num 5) ∧ (CInt.num 5).dec = .ok (.num 4) := ⟨rfl, rfl⟩

/-- **C64**, `sat_dec`, one less for nonzero integers. Missing: `ConstUsize<0>`, where it is false
(`C64_sat_dec_fails`). -/
theorem C64_sat_dec_partial (c : CInt) (n : Nat) (h : c.value = n + 1) (h9 : n < 9) :
    ∃ d, c.sat_dec = .ok d ∧ d.value = c.value - 1 := by
  obtain ⟨d, e, hv⟩ := (C64_dec c).1 n h h9
  exact ⟨d, e, by omega⟩

example : (CInt.num 1).sat_dec = .ok (.num 0) := rfl

/-- **C64** is false for the saturating decrement of 0: `ConstUsize::<0>.sat_dec()` panics (its result
type is `Dec`), although the associated type `SatDec` is `ConstUsize<0>`. -/
theorem C64_sat_dec_fails : (CInt.num 0).sat_dec = .error .panic ∧ (CInt.num 0).SatDec = .num 0 := ⟨rfl, rfl⟩

/-- **C64**, the associated type `SatDec`: truncated subtraction. -/
theorem C64_SatDec (c : CInt) (h : c ≠ .invalid) : c.SatDec.value = c.value - 1 := by
  cases c with
  | invalid => exact absurd rfl h
  | num n =>
    obtain ⟨n, hn⟩ := n
    cases n <;> rfl

example : (CInt.num 7).SatDec = .num 6 := rfl

/-- **C64**, `split_last` of a non-empty array: the first elements in order and the last one; no element is
lost (leaked) or duplicated. -/
theorem C64_split_last {A : Type} (this : List A) (h : this ≠ []) :
    ∃ left right, splitLast this = .ok (left, right) ∧ left ++ [right] = this ∧
      left.length = this.length - 1 := by
  refine ⟨this.dropLast, this.getLast h, ?_, List.dropLast_concat_getLast h, by simp⟩
  have h0 : 0 < this.length := List.length_pos_iff.2 h
  rw [splitLast, arrayFromFn_getU this _ 0 (by omega), List.getLast?_eq_some_getLast h]
  simp [bind_ok, pure_eq_ok, List.dropLast_eq_take]

example : splitLast [10, 20, 30] = .ok ([10, 20], 30) ∧
    (CInt.num 3).dec = .ok (.num 2) ∧ (CInt.num 3).inc = .ok (.num 4) := ⟨rfl, rfl, rfl⟩

/-- **C64**, the values: a `usize`, different for different types; at most 9, except the invalid
integer's `usize::MAX`. -/
theorem C64_value (c d : CInt) : (c.value = d.value ↔ c = d) ∧ c.value < 2 ^ 64 ∧
    (c.value ≤ 9 ∨ c.value = 2 ^ 64 - 1) ∧ (c = .invalid ↔ c.value = 2 ^ 64 - 1) := by
  cases c with
  | invalid =>
    cases d with
    | invalid => simp [CInt.value]
    | num n => have := n.isLt; simp [CInt.value]; omega
  | num m =>
    have hm := m.isLt
    cases d with
    | invalid => simp [CInt.value]; omega
    | num n =>
      have := n.isLt
      simp [CInt.value, Fin.ext_iff]; omega

example : (CInt.num 3).value = 3 ∧ CInt.invalid.value = 18446744073709551615 := ⟨rfl, rfl⟩

end Hibit.Props
