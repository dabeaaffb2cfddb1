import Verif.Basic
/-!
# Bit blocks and bit queues: the model

`src/bit_utils.rs`, `src/bit_block.rs`, `src/bit_queue.rs`, with `P = u64`.
A block of width `64·n` (`u64`, `wide::u64x2`, `wide::u64x4`) is the list of its `n` words
(`BitBlock::as_array`).
-/
namespace Hibit

/-- A `u64`. -/
abbrev Word := BitVec 64

/-- A bit block: its `as_array()` (bit_block.rs:76-78). -/
abbrev Mask := List Word

/-- `u64::trailing_zeros` (std): index of the lowest one bit, 64 for zero. -/
def tz (w : Word) : Nat := ((List.range 64).find? (fun i => w.getLsbD i)).getD 64

/-- `u64::count_ones` (std): number of one bits. -/
def popcount (w : Word) : Nat := (List.range 64).countP (fun i => w.getLsbD i)

/-- `p << n` on `u64`; shifting by 64 or more is an overflow (debug panic). -/
def shlP (p : Word) (n : Nat) : R Word := if n < 64 then .ok (p <<< n) else .error .panic

/-- `p >> n` on `u64`; shifting by 64 or more is an overflow (debug panic). -/
def shrP (p : Word) (n : Nat) : R Word := if n < 64 then .ok (p >>> n) else .error .panic

/-- bit_utils.rs:33-48 `set_bit_unchecked::<FLAG, u64>`: (previous bit, new block). -/
def setBitUnchecked (flag : Bool) (block : Word) (bitIndex : Nat) : R (Bool × Word) := do
  let blockMask ← shlP 1 bitIndex
  let masked := block &&& blockMask
  let block' := if flag then block ||| blockMask else block &&& ~~~ blockMask
  return (!(masked == 0), block')

/-- bit_utils.rs:12-25 `set_array_bit_unchecked::<FLAG, u64>`. -/
def setArrayBitUnchecked (flag : Bool) (blocks : List Word) (index : Nat) :
    R (Bool × List Word) := do
  let blockIndex := index / 64
  let bitIndex := index &&& (64 - 1)
  let b ← getU blocks blockIndex
  let (prev, b') ← setBitUnchecked flag b bitIndex
  let blocks' ← setU blocks blockIndex b'
  return (prev, blocks')

/-- bit_utils.rs:75-81 `get_bit_unchecked`. The `transmute` of the byte to `bool` is the test
`≠ 0` because the value is masked with one. -/
def getBitUnchecked (block : Word) (bitIndex : Nat) : R Bool := do
  let s ← shrP block bitIndex
  let out := s &&& 1
  return !(out == 0)

/-- bit_utils.rs:55-68 `get_array_bit_unchecked`. -/
def getArrayBitUnchecked (blocks : List Word) (index : Nat) : R Bool := do
  let blockIndex := index / 64
  let bitIndex := index &&& (64 - 1)
  let b ← getU blocks blockIndex
  getBitUnchecked b bitIndex

/-- bit_block.rs:29-40 `BitBlock::set_bit::<BIT>`. -/
def setBit (flag : Bool) (m : Mask) (bitIndex : Nat) : R (Bool × Mask) := do
  if m.length = 1 then
    let w ← getU m 0
    let (prev, w') ← setBitUnchecked flag w bitIndex
    let m' ← setU m 0 w'
    return (prev, m')
  else
    setArrayBitUnchecked flag m bitIndex

/-- bit_block.rs:44-55 `BitBlock::get_bit`. -/
def getBit (m : Mask) (bitIndex : Nat) : R Bool := do
  if m.length = 1 then
    let w ← getU m 0
    getBitUnchecked w bitIndex
  else
    getArrayBitUnchecked m bitIndex

/-- bit_block.rs:22-25 `BitBlock::is_zero` (all words zero). -/
def isZero (m : Mask) : Bool := m.all (fun w => w == 0)

/-- bit_block.rs:112-115, 147-154, 186-196 `count_ones` (sum over the lanes). -/
def countOnes (m : Mask) : Nat := (m.map popcount).sum

/-- `BitBlock::zero()` of `n` words. -/
def zeroMask (n : Nat) : Mask := List.replicate n 0

/-- `BitAnd` of blocks, lane-wise. -/
def andMask (a b : Mask) : Mask := List.zipWith (· &&& ·) a b

/-- `BitOr` of blocks, lane-wise. -/
def orMask (a b : Mask) : Mask := List.zipWith (· ||| ·) a b

/-- One step of the loops in bit_utils.rs:115-129, 160-166:
`t = element & element.wrapping_neg(); element ^= t`. -/
def clearLowest (element : Word) : Word := element ^^^ (element &&& -element)

/-- bit_utils.rs:154-171 `OneBitsIter::next`. -/
def OneBitsIter.next (element : Word) : Option Nat × Word :=
  if element == 0 then (none, element)
  else (some (tz element), clearLowest element)

/-- bit_utils.rs:108-131 `traverse_one_bits`. The callback `f` is an arbitrary stateful
closure returning `true` for `ControlFlow::Break`. The `while` loop runs with fuel 65
(proved sufficient: `traverseOneBits_eq`). Result: final closure state and "was broken". -/
def traverseOneBitsLoop {σ : Type} (f : σ → Nat → σ × Bool) : Nat → σ → Word → R (σ × Bool)
  | 0, _, _ => .error .fuel
  | fuel + 1, s, element =>
    if element == 0 then .ok (s, false)
    else
      let (s', brk) := f s (tz element)
      if brk then .ok (s', true)
      else traverseOneBitsLoop f fuel s' (clearLowest element)

/-- bit_utils.rs:108-131 `traverse_one_bits`. -/
def traverseOneBits {σ : Type} (f : σ → Nat → σ × Bool) (s : σ) (element : Word) :
    R (σ × Bool) :=
  traverseOneBitsLoop f 65 s element

/-- bit_utils.rs:85-105 `traverse_array_one_bits`; `i` is the running array position. -/
def traverseArrayOneBitsFrom {σ : Type} (f : σ → Nat → σ × Bool) :
    Nat → σ → List Word → R (σ × Bool)
  | _, s, [] => .ok (s, false)
  | i, s, w :: ws => do
    let (s', brk) ← traverseOneBits (fun s r => f s (i * 8 * 8 + r)) s w
    if brk then return (s', true)
    else traverseArrayOneBitsFrom f (i + 1) s' ws

/-- bit_utils.rs:85-105 `traverse_array_one_bits`. -/
def traverseArrayOneBits {σ : Type} (f : σ → Nat → σ × Bool) (s : σ) (array : List Word) :
    R (σ × Bool) :=
  traverseArrayOneBitsFrom f 0 s array

/-- bit_block.rs:61-72 `BitBlock::traverse_bits`. -/
def traverseBits {σ : Type} (f : σ → Nat → σ × Bool) (s : σ) (m : Mask) : R (σ × Bool) := do
  if m.length = 1 then
    let w ← getU m 0
    traverseOneBits f s w
  else
    traverseArrayOneBits f s m

/-- bit_queue.rs:169-174 `ArrayBitQueue`: `iters[0]` is the active word (a copy of word
`idx`), the other entries are the untouched words. -/
structure ArrayQueue where
  iters : List Word
  idx : Nat
deriving DecidableEq, Repr

/-- `BitBlock::BitsIter`: `PrimitiveBitQueue<u64>` for `u64` (bit_block.rs:91),
`ArrayBitQueue<u64, N>` for the wide blocks (bit_block.rs:129, 168). -/
inductive BitsIter where
  | prim (w : Word)
  | arr (q : ArrayQueue)
deriving DecidableEq, Repr

/-- bit_block.rs:93-95, 132-134, 171-173 `into_bits_iter`; bit_queue.rs:181-191
`ArrayBitQueue::new`. -/
def intoBitsIter (m : Mask) : BitsIter :=
  match m with
  | [w] => .prim w
  | m => .arr ⟨m, 0⟩

/-- bit_queue.rs:116-118, 198-204 `BitQueue::empty` for an `n`-word queue. -/
def BitsIter.empty (n : Nat) : BitsIter :=
  if n = 1 then .prim 0 else .arr ⟨List.replicate n 0, n - 1⟩

/-- bit_queue.rs:121-123, 207-209 `BitQueue::filled`. -/
def BitsIter.filled (n : Nat) : BitsIter :=
  if n = 1 then .prim (BitVec.allOnes 64) else .arr ⟨List.replicate n (BitVec.allOnes 64), 0⟩

/-- bit_queue.rs:310-326 `ArrayBitQueue::next`; the `loop` with fuel. -/
def ArrayQueue.nextLoop : Nat → ArrayQueue → R (Option Nat × ArrayQueue)
  | 0, _ => .error .fuel
  | fuel + 1, q => do
    let w ← getP q.iters 0
    match OneBitsIter.next w with
    | (some index, w') => return (some (q.idx * 8 * 8 + index), ⟨q.iters.set 0 w', q.idx⟩)
    | (none, w') =>
      let iters := q.iters.set 0 w'
      if q.idx = q.iters.length - 1 then return (none, ⟨iters, q.idx⟩)
      else
        let idx := q.idx + 1
        let nxt ← getU iters idx
        ArrayQueue.nextLoop fuel ⟨iters.set 0 nxt, idx⟩

/-- bit_queue.rs:310-326; the loop advances `idx` so `N + 1` rounds suffice
(`ArrayQueue.next_spec`). -/
def ArrayQueue.next (q : ArrayQueue) : R (Option Nat × ArrayQueue) :=
  ArrayQueue.nextLoop (q.iters.length + 1) q

/-- bit_queue.rs:159-164 (`PrimitiveBitQueue::next`) and 310-326 (`ArrayBitQueue::next`). -/
def BitsIter.next : BitsIter → R (Option Nat × BitsIter)
  | .prim w => let (o, w') := OneBitsIter.next w; .ok (o, .prim w')
  | .arr q => do let (o, q') ← q.next; return (o, .arr q')

/-- bit_queue.rs:10-18 `saturating_shl` on `u64`. -/
def saturatingShl (p : Word) (n : Nat) : R Word := if n ≥ 64 then .ok 0 else shlP p n

/-- bit_queue.rs:211-265 `ArrayBitQueue::trim_to`. -/
def ArrayQueue.trimTo (q : ArrayQueue) (n : Nat) : R ArrayQueue := do
  let N := q.iters.length
  let elementIndex := n / (8 * 8)
  if elementIndex ≥ N then
    return ⟨q.iters.set 0 0, N - 1⟩
  else if elementIndex < q.idx then
    return q
  else
    let q1 ← if elementIndex ≠ q.idx then do
        let w ← getU q.iters elementIndex
        pure (⟨q.iters.set 0 w, elementIndex⟩ : ArrayQueue)
      else pure q
    let bitIndex := n % (8 * 8)
    let active ← getP q1.iters 0
    let msk ← shlP (BitVec.allOnes 64) bitIndex
    return ⟨q1.iters.set 0 (active &&& msk), q1.idx⟩

/-- bit_queue.rs:126-132 (`PrimitiveBitQueue::trim_to`) and 211-265. -/
def BitsIter.trimTo : BitsIter → Nat → R BitsIter
  | .prim w, n => do
    let mask ← saturatingShl (BitVec.allOnes 64) n
    return .prim (w &&& mask)
  | .arr q, n => do let q' ← q.trimTo n; return .arr q'

/-- bit_queue.rs:135-137, 268-271 `BitQueue::current`. -/
def BitsIter.current : BitsIter → R Nat
  | .prim w => .ok (tz w)
  | .arr q => do
    let w ← getP q.iters 0
    return q.idx * 8 * 8 + tz w

/-- bit_queue.rs:140-145, 274-295 `BitQueue::traverse` (consumes the queue). -/
def BitsIter.traverse {σ : Type} (f : σ → Nat → σ × Bool) (s : σ) : BitsIter → R (σ × Bool)
  | .prim w => traverseOneBits f s w
  | .arr q => do
    let w ← getP q.iters 0
    let iters ← setU q.iters q.idx w
    let slice := (iters.drop q.idx).take (q.iters.length - q.idx)
    let startIndex := q.idx * 8 * 8
    traverseArrayOneBits (fun s i => f s (startIndex + i)) s slice

end Hibit
