import Verif.Bits.Model
/-!
# Specification vocabulary for bit blocks

A block of `n` words is the boolean array of its `64·n` bits.
-/
namespace Hibit

/-- Bit `i` of a block (words little end first); `false` beyond the width. -/
def Mask.bit (m : Mask) (i : Nat) : Bool := (m.getD (i / 64) 0).getLsbD (i % 64)

/-- The positions of the one bits, ascending. -/
def Mask.ones (m : Mask) : List Nat := (List.range (64 * m.length)).filter (fun i => m.bit i)

/-- Feed a list of values to a stateful callback, stopping at the first break. -/
def feed {σ α : Type} (f : σ → α → σ × Bool) : σ → List α → σ × Bool
  | s, [] => (s, false)
  | s, a :: as =>
    let (s', brk) := f s a
    if brk then (s', true) else feed f s' as

end Hibit
