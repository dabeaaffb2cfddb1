import Verif.Sparse.Model
import Verif.Dense.Model
/-!
# Level blocks: `SmallBlock` (src/level_block/small_block.rs) and `Block` as `HiBlock`s

`SmallBlock` keeps up to `CAP` child indices in a small inline array, in order of their position in the
mask, and moves to a full-size boxed array when it overflows. Parameters: `N` mask words, `CAP` the
length of the inline array. `MaskU64Populations` has `N` bytes (as in every use of the type: config.rs
91-116, tests/common.rs).
-/
namespace Hibit.Small
open Hibit

/-- small_block.rs:10-22 `BigSmallArray`: a union of a boxed full-size array and the inline array with
the populations of the mask words before each word. `none` is an uninitialised element. -/
inductive Store where
  | big (a : List Nat)
  | small (pops : List Nat) (cells : List (Option Nat))
deriving DecidableEq, Repr

/-- small_block.rs:99-107 `SmallBlock`. -/
structure SB where
  mask : Mask
  store : Store
deriving DecidableEq, Repr

/-- small_block.rs:75-82 `is_big`: reads the first byte, which is `big.0` (1 for a big array,
small_block.rs:32) or the first population. -/
def Store.isBig : Store → R Bool
  | .big _ => .ok true
  | .small pops _ => do
    let b ← getU pops 0
    return b != 0

/-- Access to the union field `big.1`. -/
def Store.asBig : Store → R (List Nat)
  | .big a => .ok a
  | .small _ _ => .error .ub

/-- Access to the union field `small`. -/
def Store.asSmall : Store → R (List Nat × List (Option Nat))
  | .big _ => .error .ub
  | .small p c => .ok (p, c)

/-- small_block.rs:243-255 `empty()`. -/
def SB.empty (N CAP : Nat) : SB := ⟨zeroMask N, .small (List.replicate N 0) (List.replicate CAP none)⟩

/-- small_block.rs:258-260 `is_empty()`. -/
def SB.isEmpty (b : SB) : Bool := isZero b.mask

/-- small_block.rs:125-164 `small_array_index_impl::<CHECK_FOR_EMPTY>`. -/
def smallIndexImpl (check : Bool) (mask : Mask) (pops : List Nat) (index : Nat) : R (Option Nat) := do
  let u64Index := if mask.length = 1 then 0 else index / 64
  let bitIndex := if mask.length = 1 then index else index % 64
  let block ← getU mask u64Index
  let bm ← shlP 1 bitIndex
  if check && (block &&& bm == 0) then return none
  else
    let rank ← Dense.denseIndex block bitIndex
    let offset ← if pops.length = 1 then Except.ok 0 else getU pops u64Index
    return some (offset + rank)

/-- small_block.rs:167-169 `small_array_index_unchecked`. -/
def smallIndexU (mask : Mask) (pops : List Nat) (index : Nat) : R Nat := do
  let o ← smallIndexImpl false mask pops index
  unwrapU o

/-- small_block.rs:177-193 `small_array_len`. -/
def smallLen (mask : Mask) (pops : List Nat) : R Nat := do
  let start ← if pops.length = 1 then Except.ok 0 else unwrapU pops.getLast?
  let last ← unwrapU mask.getLast?
  return start + popcount last

/-- `ptr::copy(p + src, p + dst, cnt)` inside the inline array (elements are `MaybeUninit`, so copying
uninitialised ones is allowed; leaving the array is not). -/
def copyWithin (cells : List (Option Nat)) (src dst cnt : Nat) : R (List (Option Nat)) :=
  if src + cnt ≤ cells.length ∧ dst + cnt ≤ cells.length then
    .ok (cells.take dst ++ (cells.drop src).take cnt ++ cells.drop (dst + cnt))
  else .error .ub

/-- `a - b` on `usize` (debug build). -/
def subUsize (a b : Nat) : R Nat := if b ≤ a then .ok (a - b) else .error .panic

/-- The loop of small_block.rs:230-232 (`up`, `+= 1`) and 343-345 (`-= 1`) over the words
`i, i+1, …` (`n` of them); `u8` arithmetic of a debug build. -/
def bumpPops (up : Bool) : (n i : Nat) → List Nat → R (List Nat)
  | 0, _, pops => .ok pops
  | n + 1, i, pops => do
    let p ← getU pops i
    let p' ← if up then (if p + 1 < 256 then Except.ok (p + 1) else .error .panic)
             else (if 1 ≤ p then Except.ok (p - 1) else .error .panic)
    let pops ← setU pops i p'
    bumpPops up n (i + 1) pops

/-- The closure of small_block.rs:210-216: state `(i, big_array)`. -/
def moveBody (cells : List (Option Nat)) (st : R (Nat × List Nat)) (index : Nat) :
    R (Nat × List Nat) := do
  let (i, big) ← st
  let c ← getU cells i
  let value ← unwrapU c
  let big ← setU big index value
  return (i + 1, big)

/-- small_block.rs:200-235 `insert_unchecked`. -/
def SB.insertU (CAP : Nat) (b : SB) (index value : Nat) : R SB := do
  let big ← b.store.isBig
  if big then
    let a ← b.store.asBig
    let a ← setU a index value
    let (_, mask) ← setBit true b.mask index
    return ⟨mask, .big a⟩
  else
    let (pops, cells) ← b.store.asSmall
    let len ← smallLen b.mask pops
    if len = CAP then
      let (r, _) ← traverseBits (fun st i => (moveBody cells st i, false))
        (.ok (0, List.replicate (width b.mask.length) 0)) b.mask
      let (_, a) ← r
      let a ← setU a index value
      let (_, mask) ← setBit true b.mask index
      return ⟨mask, .big a⟩
    else
      let inner ← smallIndexU b.mask pops index
      let cnt ← subUsize len inner
      let cells ← copyWithin cells inner (inner + 1) cnt
      let cells ← setU cells inner (some value)
      let pops ← bumpPops true (b.mask.length - (index / 64 + 1)) (index / 64 + 1) pops
      let (_, mask) ← setBit true b.mask index
      return ⟨mask, .small pops cells⟩

/-- small_block.rs:302-315 `get_or_zero`. -/
def SB.getOrZero (b : SB) (index : Nat) : R Nat := do
  let big ← b.store.isBig
  if big then
    let a ← b.store.asBig
    getU a index
  else
    let (pops, cells) ← b.store.asSmall
    let o ← smallIndexImpl true b.mask pops index
    match o with
    | some k => do
      let c ← getU cells k
      unwrapU c
    | none => return 0

/-- small_block.rs:318-329 `get_or_insert`; `v` is what `f` returns. -/
def SB.getOrInsert (CAP : Nat) (b : SB) (index v : Nat) : R (Nat × Bool × SB) := do
  let cur ← b.getOrZero index
  if cur = 0 then
    let b ← b.insertU CAP index v
    return (v, true, b)
  else return (cur, false, b)

/-- small_block.rs:332-359 `remove_unchecked`, with its `debug_assert!`. -/
def SB.removeU (b : SB) (index : Nat) : R SB := do
  let (prev, mask) ← setBit false b.mask index
  if prev then
    let big ← b.store.isBig
    if big then
      let a ← b.store.asBig
      let a ← setU a index 0
      return ⟨mask, .big a⟩
    else
      let (pops, cells) ← b.store.asSmall
      let inner ← smallIndexU mask pops index
      let len ← smallLen mask pops
      let cnt ← subUsize len inner
      let cells ← copyWithin cells (inner + 1) inner cnt
      let pops ← bumpPops false (mask.length - (index / 64 + 1)) (index / 64 + 1) pops
      return ⟨mask, .small pops cells⟩
  else .error .panic

/-- small_block.rs:362-372 `set_unchecked`. -/
def SB.setU (b : SB) (index item : Nat) : R SB := do
  let big ← b.store.isBig
  if big then
    let a ← b.store.asBig
    let a ← Hibit.setU a index item
    return ⟨b.mask, .big a⟩
  else
    let (pops, cells) ← b.store.asSmall
    let inner ← smallIndexU b.mask pops index
    let cells ← Hibit.setU cells inner (some item)
    return ⟨b.mask, .small pops cells⟩

/-- block.rs:81-95 `Block::get_or_insert`; `v` is what `f` returns (the item, already of the index
type). -/
def blockGetOrInsert (b : Sparse.Block) (index v : Nat) : R (Nat × Bool × Sparse.Block) := do
  let cur ← getU b.idx index
  if cur ≠ 0 then return (cur, false, b)
  else
    let (_, mask) ← setBit true b.mask index
    let idx ← setU b.idx index v
    return (v, true, ⟨mask, idx⟩)

/-- block.rs:115-118 `Block::set_unchecked` with an item of the index type. -/
def blockSet (b : Sparse.Block) (index item : Nat) : R Sparse.Block := do
  let idx ← setU b.idx index item
  return { b with idx := idx }

/-- An operation of the trait `HiBlock` (level_block/mod.rs:13-67) used on an owned block. -/
inductive Op where
  /-- `get_or_zero(i)` -/
  | get (i : Nat)
  /-- `get_or_insert(i, || v)` -/
  | getOrInsert (i v : Nat)
  /-- `remove_unchecked(i)` -/
  | remove (i : Nat)
  /-- `set_unchecked(i, v)` -/
  | set (i v : Nat)
deriving DecidableEq, Repr

/-- What a call shows: the returned item and flag, the mask afterwards, and `is_empty()`. -/
structure Obs where
  item : Nat
  inserted : Bool
  mask : Mask
  empty : Bool
deriving DecidableEq, Repr

def SB.obs (b : SB) (item : Nat) (ins : Bool) : Obs := ⟨item, ins, b.mask, b.isEmpty⟩

def blockObs (b : Sparse.Block) (item : Nat) (ins : Bool) : Obs := ⟨item, ins, b.mask, b.isEmpty⟩

/-- One call on a `SmallBlock`. -/
def SB.step (CAP : Nat) (b : SB) : Op → R (Obs × SB)
  | .get i => do let v ← b.getOrZero i; return (b.obs v false, b)
  | .getOrInsert i v => do let (r, ins, b) ← b.getOrInsert CAP i v; return (b.obs r ins, b)
  | .remove i => do let b ← b.removeU i; return (b.obs 0 false, b)
  | .set i v => do let b ← b.setU i v; return (b.obs 0 false, b)

/-- One call on a `Block`. -/
def blockStep (b : Sparse.Block) : Op → R (Obs × Sparse.Block)
  | .get i => do let v ← b.getOrZero i; return (blockObs b v false, b)
  | .getOrInsert i v => do let (r, ins, b) ← blockGetOrInsert b i v; return (blockObs b r ins, b)
  | .remove i => do let b ← b.remove i; return (blockObs b 0 false, b)
  | .set i v => do let b ← blockSet b i v; return (blockObs b 0 false, b)

/-- A sequence of calls. -/
def SB.run (CAP : Nat) : SB → List Op → R (List Obs × SB)
  | b, [] => .ok ([], b)
  | b, op :: ops => do
    let (o, b) ← b.step CAP op
    let (os, b) ← SB.run CAP b ops
    return (o :: os, b)

/-- A sequence of calls. -/
def blockRun : Sparse.Block → List Op → R (List Obs × Sparse.Block)
  | b, [] => .ok ([], b)
  | b, op :: ops => do
    let (o, b) ← blockStep b op
    let (os, b) ← blockRun b ops
    return (o :: os, b)

end Hibit.Small
