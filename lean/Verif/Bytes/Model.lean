import Verif.Dense.History
import Verif.Dense.Materialize
/-!
# DenseTree nodes as raw bytes

A second, lower model of `src/dense_tree/node.rs` and of the functions of `src/dense_tree.rs` that use
it: an allocation is an array of bytes, the header fields and the children array live at their
`repr(C)` offsets, every access is a typed load or store that must be aligned, inside the allocation
and, for loads, of initialised bytes of the right type. `alloc`, `realloc` and `dealloc` work with layout
sizes in bytes. The address of a block is a multiple of the alignment 8 passed to `alloc`, so
alignment of an access is that of its offset. The memory is the memory of the whole program: other
allocations exist, and an arbitrary allocator decides where new blocks go, so freed addresses may be reused
and `realloc` may move the block or not. Out of memory (a null result) is not modelled. Target: 64 bit,
little endian.
-/
namespace Hibit.Bytes
open Hibit Hibit.Dense

/-- A byte of memory: uninitialised, a number, or the `k`-th byte of a pointer (which has
provenance and is not a number). -/
inductive MByte where
  | undef
  | byte (b : Nat)
  | frag (p : Ptr) (k : Nat)
deriving DecidableEq, Repr

/-- An allocation. -/
abbrev Block := List MByte

/-! ## Integers and pointers in memory -/

/-- The `s` bytes of an integer, little endian. -/
def leBytes : (s : Nat) → Nat → List MByte
  | 0, _ => []
  | s + 1, v => .byte (v % 256) :: leBytes s (v / 256)

/-- The integer stored in these bytes; reading uninitialised bytes or parts of a pointer as an
integer is undefined behaviour. -/
def leVal : List MByte → R Nat
  | [] => .ok 0
  | .byte b :: bs => do
    let r ← leVal bs
    return b + 256 * r
  | _ :: _ => .error .ub

/-- The 8 bytes of a pointer. -/
def ptrBytes (p : Ptr) : List MByte := (List.range 8).map (.frag p)

/-- The pointer stored in these bytes; anything but the bytes of one pointer is undefined behaviour. -/
def ptrVal (l : List MByte) : R Ptr :=
  match l with
  | .frag p _ :: _ => if l = ptrBytes p then .ok p else .error .ub
  | _ => .error .ub

/-- A read of `size` bytes at offset `off` with alignment `align`. -/
def load (b : Block) (off size align : Nat) : R (List MByte) :=
  if off % align = 0 ∧ off + size ≤ b.length then .ok ((b.drop off).take size) else .error .ub

/-- A write at offset `off` with alignment `align`. -/
def store (b : Block) (off align : Nat) (v : List MByte) : R Block :=
  if off % align = 0 ∧ off + v.length ≤ b.length then
    .ok (b.take off ++ v ++ b.drop (off + v.length))
  else .error .ub

/-- `ptr::copy` (memmove) of `size` bytes inside one allocation. -/
def memmove (b : Block) (src dst size align : Nat) : R Block :=
  if src % align = 0 ∧ dst % align = 0 ∧ src + size ≤ b.length ∧ dst + size ≤ b.length then
    .ok (b.take dst ++ (b.drop src).take size ++ b.drop (dst + size))
  else .error .ub

/-! ## Layouts -/

/-- `n` rounded up to a multiple of `a`. -/
def alignUp (n a : Nat) : Nat := (n + a - 1) / a * a

/-- The offsets `#[repr(C)]` gives to fields of the given sizes and alignments, the first at `o` or after. -/
def reprC : Nat → List (Nat × Nat) → List Nat
  | _, [] => []
  | o, (s, a) :: fs => alignUp o a :: reprC (alignUp o a + s) fs

/-- node.rs:53-67 `NodeHeaderN<N>`: `mask: u64`, `capacity: u8`, `len: u8`,
`children_placeholder: [*const u8; N]`, as (size, alignment). -/
def headerFields (N : Nat) : List (Nat × Nat) := [(8, 8), (1, 1), (1, 1), (8 * N, 8)]

/-- Offset of `mask`. -/
def maskOff : Nat := 0
/-- Offset of `capacity`. -/
def capOff : Nat := 8
/-- Offset of `len`. -/
def lenOff : Nat := 9
/-- node.rs:119-122 `children_addr_offset()`. -/
def childrenOff : Nat := 16

/-- The offsets above are those of `NodeHeader = NodeHeaderN<0>` (node.rs:71), whose zero-sized last field is
aligned to 8, and the same in `EmptyNode = NodeHeaderN<1>` (node.rs:69). -/
theorem header_offsets : reprC 0 (headerFields 0) = [maskOff, capOff, lenOff, childrenOff] ∧
    reprC 0 (headerFields 1) = [maskOff, capOff, lenOff, childrenOff] := by decide

/-- `align_of::<NodeHeader>()`. -/
def headerAlign : Nat := 8

/-- `size_of::<T>()` and `align_of::<T>()` for `NodePtr` and `DataIndex = u32` (dense_tree.rs:28). -/
def tsize : Kind → Nat
  | .branch => 8
  | .term => 4

/-- node.rs:182-190 `layout::<T>(cap)`: its size. -/
def layoutSize (k : Kind) (cap : Nat) : Nat := alignUp (childrenOff + tsize k * cap) headerAlign

/-- `children_ptr::<T>().add(d)` (node.rs:124-134): the offset. -/
def childOff (k : Kind) (d : Nat) : Nat := childrenOff + tsize k * d

/-! ## The heap -/

/-- The content of the memory: the allocated blocks by address. -/
abbrev Mem := Nat → Option Block

/-- Only finitely many addresses are in use. -/
def Finite (m : Mem) : Prop := ∃ B, ∀ x, B ≤ x → m x = none

/-- A memory allocator: where a new block of a given size goes. The decision may depend on everything
that has happened (the number of the call and the memory); the only promise is that the
address is free. -/
structure Allocator where
  pick : (call : Nat) → Mem → (size : Nat) → Nat
  free : ∀ call m size, Finite m → m (pick call m size) = none

/-- The memory of the program, with its allocator. -/
structure BHeap where
  block : Mem
  calls : Nat
  allocator : Allocator

/-- Overwrite a block. -/
def BHeap.put (h : BHeap) (a : Nat) (b : Block) : BHeap :=
  { h with block := fun x => if x = a then some b else h.block x }

/-- `alloc(layout)` with the first bytes written to it. -/
def BHeap.alloc (h : BHeap) (b : Block) : BHeap × Nat :=
  let a := h.allocator.pick h.calls h.block b.length
  (⟨fun x => if x = a then some b else h.block x, h.calls + 1, h.allocator⟩, a)

/-- Fresh memory. -/
def fresh (size : Nat) : Block := List.replicate size .undef

/-- `dealloc(ptr, layout)`: the layout must be the one of the allocation. -/
def BHeap.dealloc (h : BHeap) (a size : Nat) : R BHeap := do
  let b ← unwrapU (h.block a)
  if b.length = size then return { h with block := fun x => if x = a then none else h.block x }
  else .error .ub

/-- `realloc(ptr, layout, new_size)`: the old bytes are kept up to the smaller of the two sizes. The
allocator may give the old address again. -/
def BHeap.realloc (h : BHeap) (a size newSize : Nat) : R (BHeap × Nat × Block) := do
  let b ← unwrapU (h.block a)
  let h ← h.dealloc a size
  let b := b.take newSize ++ fresh (newSize - b.length)
  let (h, a) := h.alloc b
  return (h, a, b)

/-- node.rs:21-44 `EMPTY_BRANCH`: element `i` of the static array as bytes (`EmptyNode` has 24 bytes;
`mem::zeroed` in the last). -/
def statBlock (i : Nat) : Option Block :=
  let header := leBytes 8 0 ++ [.byte 1, .byte 1] ++ List.replicate 6 .undef
  if i < 8 then some (header ++ ptrBytes (.stat (i + 1)))
  else if i = 8 then some (header ++ leBytes 8 0)
  else none

/-- Read access through a `NodePtr` (node.rs:110-112); a `&NodeHeader` needs the 16 bytes of the header. -/
def bytesOf (h : BHeap) (p : Ptr) : R Block := do
  let b ← unwrapU (match p with | .heap a => h.block a | .stat i => statBlock i)
  if childrenOff ≤ b.length then return b else .error .ub

/-- Write access through a `NodePtr` (node.rs:115-117); the static nodes are immutable. -/
def bytesMut (h : BHeap) : Ptr → R (Nat × Block)
  | .heap a => do let b ← bytesOf h (.heap a); return (a, b)
  | .stat _ => .error .ub

/-! ## Header fields and children -/

/-- `header.mask` -/
def getMask (b : Block) : R Word := do
  let v ← load b maskOff 8 8
  let n ← leVal v
  return BitVec.ofNat 64 n

/-- `header.mask = m` -/
def putMask (b : Block) (m : Word) : R Block := store b maskOff 8 (leBytes 8 m.toNat)

/-- `header.capacity` -/
def getCap (b : Block) : R Nat := do
  let v ← load b capOff 1 1
  leVal v

/-- `header.capacity = c` -/
def putCap (b : Block) (c : Nat) : R Block := store b capOff 1 (leBytes 1 c)

/-- `header.len` -/
def getLen (b : Block) : R Nat := do
  let v ← load b lenOff 1 1
  leVal v

/-- `header.len = l` -/
def putLen (b : Block) (l : Nat) : R Block := store b lenOff 1 (leBytes 1 l)

/-- `*children_ptr::<NodePtr>().add(d)` -/
def childPtr (b : Block) (d : Nat) : R Ptr := do
  let v ← load b (childOff .branch d) 8 8
  ptrVal v

/-- `*children_ptr::<DataIndex>().add(d)` -/
def childIdx (b : Block) (d : Nat) : R Nat := do
  let v ← load b (childOff .term d) 4 4
  leVal v

/-- The bytes of a child of type `T`. -/
def childBytes : Kind → Cell → R (List MByte)
  | .branch, .ptr p => .ok (ptrBytes p)
  | .term, .idx n => .ok (leBytes 4 n)
  | _, _ => .error .ub

/-- `children_mut_ptr::<T>().add(d).write(c)` -/
def putChild (k : Kind) (b : Block) (d : Nat) (c : Cell) : R Block := do
  let v ← childBytes k c
  store b (childOff k d) (tsize k) v

/-- node.rs:98-100 `contains` -/
def contains (h : BHeap) (p : Ptr) (index : Nat) : R Bool := do
  let b ← bytesOf h p
  let m ← getMask b
  getBitUnchecked m index

/-- `header().mask()`, node.rs:79-81 -/
def maskOf (h : BHeap) (p : Ptr) : R Word := do
  let b ← bytesOf h p
  getMask b

/-- `header().len()`, node.rs:74-76 -/
def lenOf (h : BHeap) (p : Ptr) : R Nat := do
  let b ← bytesOf h p
  getLen b

/-- `header().get_dense_index(index)`, node.rs:87-95 -/
def denseOf (h : BHeap) (p : Ptr) (index : Nat) : R Nat := do
  let m ← maskOf h p
  denseIndex m index

/-- node.rs:149-152 `get_child::<NodePtr>` -/
def getChildPtr (h : BHeap) (p : Ptr) (index : Nat) : R Ptr := do
  let d ← denseOf h p index
  let b ← bytesOf h p
  childPtr b d

/-- node.rs:149-152 `get_child::<DataIndex>` -/
def getChildIdx (h : BHeap) (p : Ptr) (index : Nat) : R Nat := do
  let d ← denseOf h p index
  let b ← bytesOf h p
  childIdx b d

/-! ## Node operations -/

/-- node.rs:193-208 `new`. -/
def nodeNew (h : BHeap) (k : Kind) (cap : Nat) (emptyChild : Cell) : R (BHeap × Nat) := do
  let b := fresh (layoutSize k cap)
  let b ← putMask b 0
  if cap ≥ 1 then
    let b ← putCap b cap
    let b ← putLen b 1
    let b ← putChild k b 0 emptyChild
    return h.alloc b
  else .error .panic

/-- node.rs:304-317: `realloc` of a full node; `capacity * 2` is `u8` arithmetic. -/
def nodeGrow (h : BHeap) (k : Kind) (a : Nat) (b : Block) : R (BHeap × Nat × Block) := do
  let cap ← getCap b
  let len ← getLen b
  if len = cap then
    let newCap ← if cap * 2 < 256 then Except.ok (cap * 2) else .error .panic
    let (h, a, b) ← h.realloc a (layoutSize k cap) (layoutSize k newCap)
    let b ← putCap b newCap
    return (h.put a b, a, b)
  else return (h, a, b)

/-- node.rs:298-335 `insert`. -/
def nodeInsert (h : BHeap) (k : Kind) (p : Ptr) (index : Nat) (value : Cell) :
    R (BHeap × Nat × Nat) := do
  let (a, b) ← bytesMut h p
  let (h, a, b) ← nodeGrow h k a b
  let m ← getMask b
  let (_, m) ← setBitUnchecked true m index
  let b ← putMask b m
  let m ← getMask b
  let d ← denseIndex m index
  let len ← getLen b
  let cnt ← if d ≤ len then Except.ok (len - d) else .error .panic
  let b ← memmove b (childOff k d) (childOff k (d + 1)) (tsize k * cnt) (tsize k)
  let b ← putChild k b d value
  let len ← getLen b
  let len ← if len + 1 < 256 then Except.ok (len + 1) else .error .panic
  let b ← putLen b len
  return (h.put a b, d, a)

/-- node.rs:338-348 `remove`. -/
def nodeRemove (h : BHeap) (k : Kind) (p : Ptr) (index : Nat) : R BHeap := do
  let (a, b) ← bytesMut h p
  let m ← getMask b
  let d ← denseIndex m index
  let (_, m) ← setBitUnchecked false m index
  let b ← putMask b m
  let len ← getLen b
  let cnt ← if d + 1 ≤ len then Except.ok (len - d - 1) else .error .panic
  let b ← memmove b (childOff k (d + 1)) (childOff k d) (tsize k * cnt) (tsize k)
  let len ← getLen b
  let len ← if 1 ≤ len then Except.ok (len - 1) else .error .panic
  let b ← putLen b len
  return h.put a b

/-- node.rs:352-356 `drop_node`. -/
def dropNode (h : BHeap) (k : Kind) (p : Ptr) : R BHeap := do
  let (a, b) ← bytesMut h p
  let cap ← getCap b
  h.dealloc a (layoutSize k cap)

/-- `*node.get_child_mut::<T>(index) = value` (node.rs:155-158). -/
def setChild (h : BHeap) (k : Kind) (p : Ptr) (index : Nat) (value : Cell) : R BHeap := do
  let (a, b) ← bytesMut h p
  let m ← getMask b
  let d ← denseIndex m index
  let b ← putChild k b d value
  return h.put a b

/-! ## The tree -/

/-- dense_tree.rs:73-90 `DenseTree` over byte memory; `heap` is the memory of the program. -/
structure BT (α : Type) where
  heap : BHeap
  root : Ptr
  data : List (Option α)
  keys : List Nat

/-- dense_tree.rs:92-112 `default()`, in a program whose memory is `h`. -/
def default (α : Type) (D : Nat) (h : BHeap) : R (BT α) := do
  let (h, a) ←
    if D = 1 then nodeNew h .term defaultCap (.idx 0)
    else do
      let e ← emptyNode 1 D
      nodeNew h .branch defaultCap (.ptr e)
  return ⟨h, .heap a, [none], [usizeMod - 1]⟩

/-- Loop state of dense_tree.rs:128-153; a `.cell a d` slot is the `&mut NodePtr` into block `a` at
offset `childOff .branch d`. -/
structure Walk where
  heap : BHeap
  root : Ptr
  slot : Slot

/-- `*node` (read). -/
def Walk.read (w : Walk) : R Ptr :=
  match w.slot with
  | .root => .ok w.root
  | .cell a d => do
    let b ← unwrapU (w.heap.block a)
    childPtr b d

/-- `*node = p`. -/
def Walk.write (w : Walk) (p : Ptr) : R Walk :=
  match w.slot with
  | .root => .ok { w with root := p }
  | .cell a d => do
    let b ← unwrapU (w.heap.block a)
    let b ← putChild .branch b d (.ptr p)
    return { w with heap := w.heap.put a b }

/-- dense_tree.rs:130-152. -/
def insertStep (D : Nat) (indices : List Nat) (w : Walk) (N : Nat) : R (Walk × Bool) := do
  let innerIndex ← getP indices N
  let nodePtr ← w.read
  let c ← contains w.heap nodePtr innerIndex
  if c then
    let (a, _) ← bytesMut w.heap nodePtr
    let d ← denseOf w.heap nodePtr innerIndex
    return ({ w with slot := .cell a d }, false)
  else
    let (h, child) ←
      if N = D - 2 then nodeNew w.heap .term defaultCap (.idx 0)
      else do
        let e ← emptyNode (N + 2) D
        nodeNew w.heap .branch defaultCap (.ptr e)
    let (h, d, a) ← nodeInsert h .branch nodePtr innerIndex (.ptr (.heap child))
    let w ← { w with heap := h }.write (.heap a)
    return ({ w with slot := .cell a d }, false)

/-- dense_tree.rs:125-153. -/
def insertWalk {α : Type} (D : Nat) (t : BT α) (indices : List Nat) : R Walk := do
  let (w, _) ← constLoop 0 (D - 1) (insertStep D indices) ⟨t.heap, t.root, .root⟩
  return w

/-- Result of `get_or_insert_impl`. -/
structure InsOut (α : Type) where
  tree : BT α
  dataIndex : Nat
  dropped : List α
  called : Bool

/-- dense_tree.rs:119-176 `get_or_insert_impl`. -/
def getOrInsertImpl {α : Type} (D : Nat) (t : BT α) (index : Nat) (ins : Bool) (value : α) :
    R (InsOut α) := do
  let indices ← levelIndices 1 D index
  let w ← insertWalk D t indices
  let nodePtr ← w.read
  let innerIndex ← unwrapU indices.getLast?
  let c ← contains w.heap nodePtr innerIndex
  if c then
    let i ← getChildIdx w.heap nodePtr innerIndex
    let t := { t with heap := w.heap, root := w.root }
    if ins then
      let old ← getU t.data i
      let old ← unwrapU old
      let data ← setU t.data i (some value)
      return ⟨{ t with data := data }, i, [old], true⟩
    else
      let old ← getU t.data i
      let _ ← unwrapU old
      return ⟨t, i, [], false⟩
  else
    let i := t.data.length
    let (h, _, a) ← nodeInsert w.heap .term nodePtr innerIndex (.idx (i % 2 ^ 32))
    let w ← { w with heap := h }.write (.heap a)
    return ⟨⟨w.heap, w.root, t.data ++ [some value], t.keys ++ [index]⟩, i, [], true⟩

/-- dense_tree.rs:186-189 `insert`. -/
def insert {α : Type} (D : Nat) (t : BT α) (index : Nat) (value : α) : R (InsOut α) := do
  let index ← indexFrom 1 D index
  getOrInsertImpl D t index true value

/-- dense_tree.rs:178-184 `get_or_insert`. -/
def getOrInsert {α : Type} (D : Nat) (t : BT α) (index : Nat) (dflt : α) : R (InsOut α) := do
  let index ← indexFrom 1 D index
  getOrInsertImpl D t index false dflt

/-- dense_tree.rs:202-207. -/
def branchLoop (h : BHeap) (indices : List Nat) : List Nat → Ptr → R (List Ptr)
  | [], _ => .ok []
  | n :: ns, p => do
    let innerIndex ← getP indices n
    let q ← getChildPtr h p innerIndex
    let rest ← branchLoop h indices ns q
    return q :: rest

/-- dense_tree.rs:196-212 `get_branch`. -/
def getBranch {α : Type} (D : Nat) (t : BT α) (indices : List Nat) : R (List Ptr) :=
  branchLoop t.heap indices (List.range (D - 1)) t.root

/-- dense_tree.rs:218-222. -/
def terminalLoop (h : BHeap) (indices : List Nat) : List Nat → Ptr → R Ptr
  | [], p => .ok p
  | n :: ns, p => do
    let innerIndex ← getU indices n
    let q ← getChildPtr h p innerIndex
    terminalLoop h indices ns q

/-- dense_tree.rs:216-225 `get_terminal_node`. -/
def getTerminalNode (D : Nat) (h : BHeap) (root : Ptr) (indices : List Nat) : R (Ptr × Nat) := do
  let p ← terminalLoop h indices (List.range (D - 1)) root
  let i ← unwrapU indices.getLast?
  return (p, i)

/-- dense_tree.rs:249-262. -/
def climbStep (root : Ptr) (branch : List Ptr) (indices : List Nat) (h : BHeap) (N : Nat) :
    R (BHeap × Bool) := do
  let node ← if N = 0 then Except.ok root else getP branch (N - 1)
  let i ← getP indices N
  let h ← nodeRemove h .branch node i
  let len ← lenOf h node
  if len ≠ 1 then return (h, true)
  else if N ≠ 0 then
    let h ← dropNode h .branch node
    return (h, false)
  else return (h, false)

/-- dense_tree.rs:267-276. -/
def removeKey {α : Type} (D : Nat) (t : BT α) (index dataIndex : Nat) : R (BT α) := do
  let lastKey ← unwrapU t.keys.getLast?
  let keys := t.keys.dropLast
  if lastKey ≠ index then
    let keys ← setU keys dataIndex lastKey
    let indices ← levelIndices 1 D lastKey
    let (node, inner) ← getTerminalNode D t.heap t.root indices
    let h ← setChild t.heap .term node inner (.idx (dataIndex % 2 ^ 32))
    return { t with keys := keys, heap := h }
  else return { t with keys := keys }

/-- dense_tree.rs:241-264. -/
def removeCell {α : Type} (D : Nat) (t : BT α) (indices : List Nat) (branch : List Ptr)
    (terminal : Ptr) (inner : Nat) : R BHeap := do
  let h ← nodeRemove t.heap .term terminal inner
  let len ← lenOf h terminal
  if len = 1 then
    let h ← dropNode h .term terminal
    let (h, _) ← constLoopRev 0 (D - 1) (climbStep t.root branch indices) h
    return h
  else return h

/-- dense_tree.rs:228-285 `remove`. -/
def remove {α : Type} (D : Nat) (t : BT α) (index : Nat) : R (BT α × Option α) := do
  let index ← indexFrom 1 D index
  let indices ← levelIndices 1 D index
  let branch ← getBranch D t indices
  let terminal ← unwrapU branch.getLast?
  let inner ← unwrapU indices.getLast?
  let dataIndex ← getChildIdx t.heap terminal inner
  let key ← getU t.keys dataIndex
  if key = index then
    let h ← removeCell D t indices branch terminal inner
    let t ← removeKey D { t with heap := h } index dataIndex
    let (v, data) ← swapRemove t.data dataIndex
    return ({ t with data := data }, some v)
  else return (t, none)

/-- node.rs:359-373 `drop_node_with_childs`. -/
def dropNodeWithChilds : (levelsLeft : Nat) → BHeap → Ptr → R BHeap
  | 0, _, _ => .error .panic
  | 1, h, p => dropNode h .term p
  | r + 2, h, p => do
    let m ← maskOf h p
    let h ← (Mask.ones [m]).foldlM (fun h i => do
      let q ← getChildPtr h p i
      dropNodeWithChilds (r + 1) h q) h
    dropNode h .branch p

/-- dense_tree.rs:312-323 `drop_impl`. -/
def dropImpl {α : Type} (D : Nat) (t : BT α) : R (List α × BHeap) := do
  if 1 ≤ t.data.length then
    let vs ← dropSlice (t.data.drop 1)
    let h ← dropNodeWithChilds D t.heap t.root
    return (vs, h)
  else .error .panic

/-- dense_tree.rs:365-378 `HibitTree::data`. -/
def treeData {α : Type} (D : Nat) (t : BT α) (index : Nat) (indices : List Nat) :
    R (Option α) := do
  let (node, inner) ← getTerminalNode D t.heap t.root indices
  let dataIndex ← getChildIdx t.heap node inner
  let key ← getU t.keys dataIndex
  if key = index then
    let v ← getU t.data dataIndex
    let v ← unwrapU v
    return some v
  else return none

/-- dense_tree.rs:438-442, 469-473. -/
def prevNode {α : Type} (c : Cursor) (t : BT α) (n : Nat) : R Ptr :=
  if n = 1 then .ok t.root
  else do
    let o ← getU c (n - 1 - 1)
    unwrapU o

/-- dense_tree.rs:424-452 `select_level_node`. -/
def curSelect {α : Type} (D : Nat) (c : Cursor) (t : BT α) (n i : Nat) : R (Mask × Cursor) := do
  if n = 0 then
    let m ← maskOf t.heap t.root
    return ([m], c)
  else
    let prev ← prevNode c t n
    let contains ← contains t.heap prev i
    let node ← getChildPtr t.heap prev i
    let node ← if contains then Except.ok node else emptyNode n D
    let c ← setU c (n - 1) (some node)
    let m ← maskOf t.heap node
    return ([m], c)

/-- dense_tree.rs:455-480 `select_level_node_unchecked`. -/
def curSelectU {α : Type} (c : Cursor) (t : BT α) (n i : Nat) : R (Mask × Cursor) := do
  if n = 0 then
    let m ← maskOf t.heap t.root
    return ([m], c)
  else
    let prev ← prevNode c t n
    let node ← getChildPtr t.heap prev i
    let c ← setU c (n - 1) (some node)
    let m ← maskOf t.heap node
    return ([m], c)

/-- dense_tree.rs:488-493, 511-516. -/
def curTerminal {α : Type} (D : Nat) (c : Cursor) (t : BT α) : R Ptr :=
  if D = 1 then .ok t.root
  else do
    let o ← unwrapU c.getLast?
    unwrapU o

/-- dense_tree.rs:485-505 `Cursor::data`. -/
def curData {α : Type} (D : Nat) (c : Cursor) (t : BT α) (i : Nat) : R (Option α) := do
  let node ← curTerminal D c t
  let contains ← contains t.heap node i
  if contains then
    let dataIndex ← getChildIdx t.heap node i
    let v ← getU t.data dataIndex
    let v ← unwrapU v
    return some v
  else return none

/-- dense_tree.rs:508-520 `Cursor::data_unchecked`. -/
def curDataU {α : Type} (D : Nat) (c : Cursor) (t : BT α) (i : Nat) : R α := do
  let node ← curTerminal D c t
  let dataIndex ← getChildIdx t.heap node i
  let v ← getU t.data dataIndex
  unwrapU v

/-- dense_tree.rs:354-386 (tree) and 409-521 (cursor), over byte memory. -/
def impl (α : Type) (D : Nat) : Impl (BT α) Cursor α where
  N := 1
  D := D
  exact := true
  data := treeData D
  dataU := fun t index li => do let d ← treeData D t index li; unwrapU d
  new := fun _ => .ok (List.replicate (D - 1) none)
  select := curSelect D
  selectU := curSelectU
  curData := curData D
  curDataU := curDataU D

/-! ## Histories -/

/-- dense_tree.rs:289-309 `key_values`, `key_values_mut`. -/
def keyValues {α : Type} (t : BT α) : R (List Nat × List (Option α)) :=
  if 1 ≤ t.keys.length ∧ 1 ≤ t.data.length then .ok (t.keys.drop 1, t.data.drop 1)
  else .error .ub

/-- As `Dense.writeRef`. -/
def writeRef {α : Type} (t : BT α) (i : Nat) (g : α → α) : R (BT α × α) := do
  let old ← getU t.data i
  let old ← unwrapU old
  let data ← setU t.data i (some (g old))
  return ({ t with data := data }, old)

/-- As `Dense.mutValues`. -/
def mutValues {α : Type} (t : BT α) (g : Nat → α → α) : R (BT α) := do
  let (ks, vs) ← keyValues t
  return { t with data := t.data.take 1 ++ List.zipWith (fun k v => v.map (g k)) ks vs }

/-- As `Dense.step`. -/
def step {α : Type} (D : Nat) (t : BT α) : Op α → R (BT α × Option α × List α)
  | .insert k v => do
    let out ← insert D t k v
    return (out.tree, none, out.dropped)
  | .getOrInsert k dflt g => do
    let out ← getOrInsert D t k dflt
    let (t, v) ← writeRef out.tree out.dataIndex g
    return (t, some v, out.dropped)
  | .remove k => do
    let (t, v) ← remove D t k
    return (t, v, [])
  | .get k => do
    let v ← (impl α D).get t k
    return (t, v, [])
  | .mutValues g => do
    let t ← mutValues t g
    return (t, none, [])

/-- As `Dense.run`. -/
def run {α : Type} (D : Nat) (t : BT α) : List (Op α) → R (BT α × List (Option α × List α))
  | [] => .ok (t, [])
  | op :: ops => do
    let (t, o) ← step D t op
    let (t, os) ← run D t ops
    return (t, o :: os)

end Hibit.Bytes
