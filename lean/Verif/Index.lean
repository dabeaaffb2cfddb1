import Verif.Basic
/-!
# Indices: the model

`src/lib.rs:206-247`, `src/hibit_tree.rs:63-79, 190-217`.
A configuration is given by the number `N` of 64-bit words of the node mask
(`LevelMask::SIZE = 64·N`) and the depth `D` (`LevelCount::VALUE`).
-/
namespace Hibit

/-- `LevelMask::SIZE` for an `N`-word mask (bit_block.rs:87, 121, 160). -/
def width (N : Nat) : Nat := 64 * N

/-- `LevelMask::SIZE.ilog2()`. -/
def ilog2w (N : Nat) : Nat := Nat.log2 (width N)

/-- 2^64, the modulus of `usize` on a 64-bit target. -/
def usizeMod : Nat := 2 ^ 64

/-- Checked (debug) shift amount of a `usize` shift. -/
def shAmt (e : Nat) : R Nat := if e < 64 then .ok e else .error .panic

/-- The loop of lib.rs:231-242 `level_indices`, for levels `level .. level + n - 1`
where `n + 1` levels are left; returns the remaining coordinates.
`usize` shifts: `>>` is division; `& (2^e - 1)` as written. -/
def levelIndicesLoop (lw : Nat) : (n : Nat) → (remainder : Nat) → R (List Nat)
  | 0, rem => .ok [rem]
  | n + 1, rem => do
    let exp ← shAmt (lw * (n + 1))
    let cap := 1 <<< exp
    let levelIndex := rem >>> exp
    let rem' := rem &&& (cap - 1)
    let rest ← levelIndicesLoop lw n rem'
    return levelIndex :: rest

/-- lib.rs:220-247 `level_indices`. `last_mut().unwrap()` panics for zero levels. -/
def levelIndices (N D : Nat) (index : Nat) : R (List Nat) :=
  match D with
  | 0 => .error .panic
  | d + 1 => levelIndicesLoop (ilog2w N) d index

/-- lib.rs:206-216 `data_block_index`: `for n in 0..level_count-1`, started at `n`.
`<<` drops bits shifted out of `usize`; `+=` overflow panics (debug). -/
def dataBlockIndexLoop (lw D : Nat) (li : List Nat) : (todo : Nat) → (n : Nat) → (acc : Nat) → R Nat
  | 0, _, acc => .ok acc
  | todo + 1, n, acc => do
    let v ← getP li n
    let exp ← shAmt (lw * (D - n - 1))
    let acc' := acc + (v <<< exp) % usizeMod
    if acc' < usizeMod then dataBlockIndexLoop lw D li todo (n + 1) acc'
    else .error .panic

/-- lib.rs:206-216 `data_block_index`. -/
def dataBlockIndex (N D : Nat) (li : List Nat) (dataIndex : Nat) : R Nat :=
  dataBlockIndexLoop (ilog2w N) D li (D - 1) 0 dataIndex

/-- `usize::saturating_pow`. -/
def saturatingPow (b e : Nat) : Nat := min (b ^ e) (usizeMod - 1)

/-- `usize::pow`: overflow panics in debug builds, wraps in release builds. -/
def powDebug (b e : Nat) : R Nat := if b ^ e < usizeMod then .ok (b ^ e) else .error .panic
/-- `usize::pow` in release builds. -/
def powRelease (b e : Nat) : Nat := b ^ e % usizeMod

/-- hibit_tree.rs:74-78 `Index::from(usize)`: the value or a panic. -/
def indexFrom (N D : Nat) (index : Nat) : R Nat :=
  let rangeEnd := saturatingPow (width N) D
  if index < rangeEnd then .ok index else .error .panic

/-- hibit_tree.rs:215-217 `index_range().end`, debug build. -/
def indexRangeEnd (N D : Nat) : R Nat := powDebug (width N) D
/-- hibit_tree.rs:215-217 `index_range().end`, release build. -/
def indexRangeEndRelease (N D : Nat) : Nat := powRelease (width N) D

/-! ## Specification vocabulary -/

/-- Coordinates of `i` in a tree of width `W` and depth `D`: base-`W` digits, most
significant first. -/
def path (W : Nat) : (D : Nat) → Nat → List Nat
  | 0, _ => []
  | d + 1, i => (i / W ^ d) :: path W d (i % W ^ d)

/-- The index with the given coordinates. -/
def unpath (W : Nat) (p : List Nat) : Nat := p.foldl (fun a d => a * W + d) 0

/-- Strict lexicographic order of coordinate lists. -/
def lexLt : List Nat → List Nat → Prop
  | [], [] => False
  | [], _ :: _ => True
  | _ :: _, [] => False
  | a :: as, b :: bs => a < b ∨ (a = b ∧ lexLt as bs)

/-- A supported configuration: mask of 1, 2 or 4 words, at least one level, indices fit in
`usize` (`W^D ≤ 2^64`); all configurations of the crate satisfy this
(`DenseTree`: W = 64, D ≤ 9; `SparseTree`: W ∈ {64,128,256}, D ≤ 8). -/
structure ValidCfg (N D : Nat) : Prop where
  words : N = 1 ∨ N = 2 ∨ N = 4
  depth : 0 < D
  fits : width N ^ D ≤ usizeMod

end Hibit
