import Verif.Small.Model
/-!
# Level blocks: `ClusterBlock` (src/level_block/cluster_block.rs)

The third implementation of `HiBlock`: the mask is cut into pieces of 16 bits ("sub-blocks"), and the
items of a non-empty piece are kept, in order of their positions, in one of up to four arrays of 16
items. Parameter: `N` mask words; `SubBlockIndices` has one entry per piece (`4 * N`), `SubBlock` has 16
(the safety comment of cluster_block.rs:57-59). Items are natural numbers: no arithmetic is done on them.
-/
namespace Hibit.Cluster
open Hibit

/-- cluster_block.rs:9 `SubBlockMask`. -/
abbrev Sub := BitVec 16

/-- cluster_block.rs:60-69 `ClusterBlock`. -/
structure CB where
  mask : Mask
  subs : List Nat
  storage : List (List Nat)
deriving DecidableEq, Repr

/-- cluster_block.rs:106-115 `empty()`: zeroed indices, empty storage. -/
def CB.empty (N : Nat) : CB := ⟨zeroMask N, List.replicate (4 * N) 0, []⟩

/-- cluster_block.rs:78-86 `sub_masks(mask)[k]`: the mask's memory read as 16-bit pieces (little-endian,
as on every supported target). -/
def subMask (m : Mask) (k : Nat) : R Sub := do
  let w ← getU m (k / 4)
  return w.extractLsb' (16 * (k % 4)) 16

/-- cluster_block.rs:226 `*sub_block_mask_mut |= block_mask` (through `sub_masks_mut`, 88-97). -/
def orSubMask (m : Mask) (k : Nat) (b : Sub) : R Mask := do
  let w ← getU m (k / 4)
  setU m (k / 4) (w ||| (b.setWidth 64 <<< (16 * (k % 4))))

/-- `count_ones()` on `u16`. -/
def pop16 (x : Sub) : Nat := (List.range 16).countP (fun i => x.getLsbD i)

/-- `1 << n` on `u16`; shifting by 16 or more is an overflow. -/
def bit16 (n : Nat) : R Sub := if n < 16 then .ok (1#16 <<< n) else .error .panic

/-- `!(SubBlockMask::MAX << n)`. -/
def lowMask16 (n : Nat) : R Sub :=
  if n < 16 then .ok (~~~ (BitVec.allOnes 16 <<< n)) else .error .panic

/-- cluster_block.rs:163-191 `get_or_zero`. -/
def CB.getOrZero (b : CB) (index : Nat) : R Nat := do
  let k := index / 16
  let j := index % 16
  let s ← subMask b.mask k
  let one ← bit16 j
  if s &&& one == 0 then return 0
  else
    let low ← lowMask16 j
    let inner := pop16 (s &&& low)
    let p ← getU b.subs k
    let blk ← getU b.storage p
    getU blk inner

/-- `ptr::copy(p + src, p + dst, cnt)` inside an array. -/
def copyCells (cells : List Nat) (src dst cnt : Nat) : R (List Nat) :=
  if src + cnt ≤ cells.length ∧ dst + cnt ≤ cells.length then
    .ok (cells.take dst ++ (cells.drop src).take cnt ++ cells.drop (dst + cnt))
  else .error .ub

/-- cluster_block.rs:200-214: a new sub-block is pushed (`ArrayVec::push` panics beyond 4) if the piece of
the mask is zero; the position of the sub-block and the new block. -/
def CB.locate (b : CB) (k : Nat) (s : Sub) : R (Nat × CB) := do
  if s == 0 then
    if b.storage.length < 4 then
      let storage := b.storage ++ [List.replicate 16 0]
      let p := storage.length - 1
      let subs ← setU b.subs k p
      return (p, { b with subs := subs, storage := storage })
    else .error .panic
  else
    let p ← getU b.subs k
    return (p, b)

/-- cluster_block.rs:193-252 `get_or_insert`; `v` is what `f` returns. `sub_block_mask` is cut down to
the bits below the position (line 220) before the bit itself is tested (228). -/
def CB.getOrInsert (b : CB) (index v : Nat) : R (Nat × Bool × CB) := do
  let k := index / 16
  let j := index % 16
  let s ← subMask b.mask k
  let (p, b) ← b.locate k s
  let blk ← getU b.storage p
  let low ← lowMask16 j
  let s := s &&& low
  let inner := pop16 s
  let one ← bit16 j
  if s &&& one == 0 then
    let mask ← orSubMask b.mask k one
    let len := pop16 s
    let cnt ← Small.subUsize len inner
    let blk ← copyCells blk inner (inner + 1) cnt
    let blk ← setU blk inner v
    let storage ← setU b.storage p blk
    return (v, true, { b with mask := mask, storage := storage })
  else
    let r ← getU blk inner
    return (r, false, b)

/-- One call on a `ClusterBlock`: what is shown is the item, the flag and the mask. `remove_unchecked`
and `set_unchecked` are `todo!()` (cluster_block.rs:254-260), so is `is_empty` (118-120), which is
therefore not shown. -/
def CB.step (b : CB) : Small.Op → R ((Nat × Bool × Mask) × CB)
  | .get i => do let v ← b.getOrZero i; return ((v, false, b.mask), b)
  | .getOrInsert i v => do let (r, ins, b) ← b.getOrInsert i v; return ((r, ins, b.mask), b)
  | .remove _ => .error .panic
  | .set _ _ => .error .panic

/-- A sequence of calls. -/
def CB.run : CB → List Small.Op → R (List (Nat × Bool × Mask) × CB)
  | b, [] => .ok ([], b)
  | b, op :: ops => do
    let (o, b) ← b.step op
    let (os, b) ← CB.run b ops
    return (o :: os, b)

end Hibit.Cluster
