import Verif.Interface
import Verif.ConstFor
/-!
# DenseTree: the model

`src/dense_tree.rs`, `src/dense_tree/node.rs` over an explicit heap.

* A heap block is a node with the array of its children cells; freshly allocated cells are
  uninitialised. Addresses are never reused, `realloc` always moves: every stale pointer is
  detected as undefined behaviour.
* Each tree has its own heap (trees share no nodes), plus the static `EMPTY_BRANCH`.
* `u8` arithmetic that would overflow is a panic (debug build).
-/
namespace Hibit.Dense
open Hibit

/-- node.rs:103-106 `NodePtr`: a heap node or an element of the static `EMPTY_BRANCH`. -/
inductive Ptr where
  | heap (a : Nat)
  | stat (i : Nat)
deriving DecidableEq, Repr

/-- A children cell: uninitialised, a `NodePtr` or a `DataIndex` (dense_tree.rs:28). -/
inductive Cell where
  | uninit
  | ptr (p : Ptr)
  | idx (n : Nat)
deriving DecidableEq, Repr

/-- The child type `T` of `layout::<T>`: `NodePtr` or `DataIndex` (node.rs:16-19). -/
inductive Kind where
  | branch
  | term
deriving DecidableEq, Repr

/-- node.rs:53-67 `NodeHeader` with its children array. `kind` and `cells.length` are the layout
the block was allocated with (node.rs:182-190). -/
structure Node where
  kind : Kind
  mask : Word
  cap : Nat
  len : Nat
  cells : List Cell
deriving DecidableEq, Repr

/-- The heap blocks owned by one tree; `next` is above all addresses ever returned. -/
structure Heap where
  node : Nat → Option Node
  next : Nat

/-- `f[a ↦ b]`. -/
def upd {α β : Type} [DecidableEq α] (f : α → β) (a : α) (b : β) : α → β :=
  fun x => if x = a then b else f x

/-- node.rs:14 `DEFAULT_CAP`. -/
def defaultCap : Nat := 2

/-- node.rs:21-44 `EMPTY_BRANCH`: 9 static nodes, each the only (sentinel) child of the previous;
the last one's cell is zeroed memory, i.e. `DataIndex` 0. -/
def statNode (i : Nat) : Option Node :=
  if i < 8 then some ⟨.branch, 0, 1, 1, [.ptr (.stat (i + 1))]⟩
  else if i = 8 then some ⟨.term, 0, 1, 1, [.idx 0]⟩
  else none

/-- node.rs:46-51 `empty_node(N, DEPTH)`; the array access is bounds checked. -/
def emptyNode (n D : Nat) : R Ptr :=
  if D ≤ 9 ∧ 9 - D + n < 9 then .ok (.stat (9 - D + n)) else .error .panic

/-- node.rs:110-112 `header()`: read access through a pointer. -/
def deref (h : Heap) : Ptr → R Node
  | .heap a => unwrapU (h.node a)
  | .stat i => unwrapU (statNode i)

/-- node.rs:115-117 `header_mut()`: write access; the static nodes are immutable. -/
def derefMut (h : Heap) : Ptr → R (Nat × Node)
  | .heap a => do let n ← unwrapU (h.node a); return (a, n)
  | .stat _ => .error .ub

/-- Overwrite a block. -/
def Heap.put (h : Heap) (a : Nat) (n : Node) : Heap := { h with node := upd h.node a (some n) }

/-- `alloc(layout)` with the block's initial content. -/
def Heap.alloc (h : Heap) (n : Node) : Heap × Nat :=
  (⟨upd h.node h.next (some n), h.next + 1⟩, h.next)

/-- `dealloc(ptr, layout)`: the layout must be the one of the allocation. -/
def Heap.dealloc (h : Heap) (a : Nat) (k : Kind) (cap : Nat) : R Heap := do
  let n ← unwrapU (h.node a)
  if n.kind = k ∧ n.cells.length = cap then return { h with node := upd h.node a none }
  else .error .ub

/-- Read a cell as `NodePtr`. -/
def Cell.asPtr : Cell → R Ptr
  | .ptr p => .ok p
  | _ => .error .ub

/-- Read a cell as `DataIndex`. -/
def Cell.asIdx : Cell → R Nat
  | .idx n => .ok n
  | _ => .error .ub

/-- node.rs:87-95 `get_dense_index`, portable path (91-92). -/
def denseIndex (mask : Word) (index : Nat) : R Nat := do
  let m ← shlP (BitVec.allOnes 64) index
  return popcount (mask &&& ~~~ m)

/-- `_bzhi_u64(src, index)`: clears the bits from position `index[7:0]` on. -/
def bzhi (src : Word) (index : Nat) : Word :=
  BitVec.ofNat 64 (src.toNat % 2 ^ (index % 256))

/-- node.rs:87-95 `get_dense_index`, `bmi2` path (88-89); `index as u32`. -/
def denseIndexBmi2 (mask : Word) (index : Nat) : R Nat :=
  .ok (popcount (bzhi mask (index % 2 ^ 32)))

/-- node.rs:98-100 `contains`. -/
def Node.contains (n : Node) (index : Nat) : R Bool := getBitUnchecked n.mask index

/-- node.rs:149-152 `get_child`. -/
def getChild (h : Heap) (p : Ptr) (index : Nat) : R Cell := do
  let n ← deref h p
  let d ← denseIndex n.mask index
  getU n.cells d

/-- node.rs:193-208 `NodePtr::new`. -/
def nodeNew (h : Heap) (k : Kind) (cap : Nat) (emptyChild : Cell) : R (Heap × Nat) :=
  if cap ≥ 1 then
    .ok (h.alloc ⟨k, 0, cap, 1, emptyChild :: List.replicate (cap - 1) .uninit⟩)
  else .error .panic

/-- `ptr::copy(p + src, p + dst, cnt)` inside one children array. -/
def copyCells (cells : List Cell) (src dst cnt : Nat) : R (List Cell) :=
  if src + cnt ≤ cells.length ∧ dst + cnt ≤ cells.length then
    .ok (cells.take dst ++ (cells.drop src).take cnt ++ cells.drop (dst + cnt))
  else .error .ub

/-- node.rs:304-317: grow a full node; `capacity * 2` is `u8` arithmetic. -/
def nodeGrow (h : Heap) (k : Kind) (a : Nat) (n : Node) : R (Heap × Nat × Node) := do
  if n.len = n.cap then
    let newCap ← if n.cap * 2 < 256 then Except.ok (n.cap * 2) else .error .panic
    let h ← h.dealloc a k n.cap
    let n' := { n with cap := newCap,
                       cells := n.cells ++ List.replicate (newCap - n.cells.length) .uninit }
    let (h, a') := h.alloc n'
    return (h, a', n')
  else return (h, a, n)

/-- node.rs:298-335 `insert`: the new heap, the dense position of the inserted child, and the
(possibly new) address of the node. -/
def nodeInsert (h : Heap) (k : Kind) (p : Ptr) (index : Nat) (value : Cell) :
    R (Heap × Nat × Nat) := do
  let (a, n) ← derefMut h p
  if n.kind ≠ k then .error .ub
  else
    let (h, a, n) ← nodeGrow h k a n
    let (_, mask) ← setBitUnchecked true n.mask index
    let d ← denseIndex mask index
    let cnt ← if d ≤ n.len then Except.ok (n.len - d) else .error .panic
    let cells ← copyCells n.cells d (d + 1) cnt
    let cells ← setU cells d value
    let len ← if n.len + 1 < 256 then Except.ok (n.len + 1) else .error .panic
    return (h.put a { n with mask := mask, len := len, cells := cells }, d, a)

/-- node.rs:338-348 `remove`. -/
def nodeRemove (h : Heap) (k : Kind) (p : Ptr) (index : Nat) : R Heap := do
  let (a, n) ← derefMut h p
  if n.kind ≠ k then .error .ub
  else
    let d ← denseIndex n.mask index
    let (_, mask) ← setBitUnchecked false n.mask index
    let cnt ← if d + 1 ≤ n.len then Except.ok (n.len - d - 1) else .error .panic
    let cells ← copyCells n.cells (d + 1) d cnt
    return h.put a { n with mask := mask, len := n.len - 1, cells := cells }

/-- node.rs:352-356 `drop_node`. -/
def dropNode (h : Heap) (k : Kind) (p : Ptr) : R Heap := do
  let (a, n) ← derefMut h p
  h.dealloc a k n.cap

/-- `*node.get_child_mut::<T>(index) = value` (node.rs:155-158); `T` must be the child type of the
node. -/
def setChild (h : Heap) (k : Kind) (p : Ptr) (index : Nat) (value : Cell) : R Heap := do
  let (a, n) ← derefMut h p
  if n.kind ≠ k then .error .ub
  else
    let d ← denseIndex n.mask index
    let cells ← setU n.cells d value
    return h.put a { n with cells := cells }

/-- dense_tree.rs:73-90 `DenseTree`. `data[0]` is the uninitialised placeholder (`none`). -/
structure DT (α : Type) where
  heap : Heap
  root : Ptr
  data : List (Option α)
  keys : List Nat

/-- dense_tree.rs:92-112 `default()`. -/
def default (α : Type) (D : Nat) : R (DT α) := do
  let h : Heap := ⟨fun _ => none, 0⟩
  let (h, a) ←
    if D = 1 then nodeNew h .term defaultCap (.idx 0)
    else do
      let e ← emptyNode 1 D
      nodeNew h .branch defaultCap (.ptr e)
  return ⟨h, .heap a, [none], [usizeMod - 1]⟩

/-- The place `node: &mut NodePtr` of dense_tree.rs:128 points to: the field `root` or a
children cell. -/
inductive Slot where
  | root
  | cell (a : Nat) (d : Nat)

/-- Loop state of dense_tree.rs:128-153. -/
structure Walk where
  heap : Heap
  root : Ptr
  slot : Slot

/-- `*node` (read). -/
def Walk.read (w : Walk) : R Ptr :=
  match w.slot with
  | .root => .ok w.root
  | .cell a d => do
    let n ← unwrapU (w.heap.node a)
    let c ← getU n.cells d
    c.asPtr

/-- `*node = p`. -/
def Walk.write (w : Walk) (p : Ptr) : R Walk :=
  match w.slot with
  | .root => .ok { w with root := p }
  | .cell a d => do
    let n ← unwrapU (w.heap.node a)
    if n.kind ≠ .branch then .error .ub
    else
      let cells ← setU n.cells d (.ptr p)
      return { w with heap := w.heap.put a { n with cells := cells } }

/-- dense_tree.rs:130-152: one level of the descent, creating the child node if missing. -/
def insertStep (D : Nat) (indices : List Nat) (w : Walk) (N : Nat) : R (Walk × Bool) := do
  let innerIndex ← getP indices N
  let nodePtr ← w.read
  let n ← deref w.heap nodePtr
  let c ← n.contains innerIndex
  if c then
    let (a, n) ← derefMut w.heap nodePtr
    let d ← denseIndex n.mask innerIndex
    return ({ w with slot := .cell a d }, false)
  else
    let (h, child) ←
      if N = D - 2 then nodeNew w.heap .term defaultCap (.idx 0)
      else do
        let e ← emptyNode (N + 2) D
        nodeNew w.heap .branch defaultCap (.ptr e)
    let (h, d, a) ← nodeInsert h .branch nodePtr innerIndex (.ptr (.heap child))
    let w ← { w with heap := h }.write (.heap a)
    return ({ w with slot := .cell a d }, false)

/-- dense_tree.rs:125-153: descend to the slot of the terminal node. -/
def insertWalk {α : Type} (D : Nat) (t : DT α) (indices : List Nat) : R Walk := do
  let (w, _) ← constLoop 0 (D - 1) (insertStep D indices) ⟨t.heap, t.root, .root⟩
  return w

/-- Result of `get_or_insert_impl`: the tree, the position in `data` of the returned
reference, the values dropped, and whether `value_fn` was called. -/
structure InsOut (α : Type) where
  tree : DT α
  dataIndex : Nat
  dropped : List α
  called : Bool

/-- dense_tree.rs:119-176 `get_or_insert_impl`; `ins` is the const flag `insert`, `value` what
`value_fn` returns. -/
def getOrInsertImpl {α : Type} (D : Nat) (t : DT α) (index : Nat) (ins : Bool) (value : α) :
    R (InsOut α) := do
  let indices ← levelIndices 1 D index
  let w ← insertWalk D t indices
  let nodePtr ← w.read
  let innerIndex ← unwrapU indices.getLast?
  let n ← deref w.heap nodePtr
  let c ← n.contains innerIndex
  if c then
    let cell ← getChild w.heap nodePtr innerIndex
    let i ← cell.asIdx
    let t := { t with heap := w.heap, root := w.root }
    if ins then
      let old ← getU t.data i
      let old ← unwrapU old    -- assignment drops the old value: it must be initialised
      let data ← setU t.data i (some value)
      return ⟨{ t with data := data }, i, [old], true⟩
    else
      let old ← getU t.data i
      let _ ← unwrapU old
      return ⟨t, i, [], false⟩
  else
    let i := t.data.length
    let (h, _, a) ← nodeInsert w.heap .term nodePtr innerIndex (.idx (i % 2 ^ 32))
    let w ← { w with heap := h }.write (.heap a)
    return ⟨⟨w.heap, w.root, t.data ++ [some value], t.keys ++ [index]⟩, i, [], true⟩

/-- dense_tree.rs:186-189 `insert`. Also returns the dropped values. -/
def insert {α : Type} (D : Nat) (t : DT α) (index : Nat) (value : α) : R (InsOut α) := do
  let index ← indexFrom 1 D index
  getOrInsertImpl D t index true value

/-- dense_tree.rs:178-184 `get_or_insert`; `dflt` is `T::default()`. -/
def getOrInsert {α : Type} (D : Nat) (t : DT α) (index : Nat) (dflt : α) : R (InsOut α) := do
  let index ← indexFrom 1 D index
  getOrInsertImpl D t index false dflt

/-- The loop of dense_tree.rs:202-207 over the remaining levels. -/
def branchLoop (h : Heap) (indices : List Nat) : List Nat → Ptr → R (List Ptr)
  | [], _ => .ok []
  | n :: ns, p => do
    let innerIndex ← getP indices n
    let c ← getChild h p innerIndex
    let q ← c.asPtr
    let rest ← branchLoop h indices ns q
    return q :: rest

/-- dense_tree.rs:196-212 `get_branch`. -/
def getBranch {α : Type} (D : Nat) (t : DT α) (indices : List Nat) : R (List Ptr) :=
  branchLoop t.heap indices (List.range (D - 1)) t.root

/-- The loop of dense_tree.rs:218-222. -/
def terminalLoop (h : Heap) (indices : List Nat) : List Nat → Ptr → R Ptr
  | [], p => .ok p
  | n :: ns, p => do
    let innerIndex ← getU indices n
    let c ← getChild h p innerIndex
    let q ← c.asPtr
    terminalLoop h indices ns q

/-- dense_tree.rs:216-225 `get_terminal_node`. -/
def getTerminalNode (D : Nat) (h : Heap) (root : Ptr) (indices : List Nat) : R (Ptr × Nat) := do
  let p ← terminalLoop h indices (List.range (D - 1)) root
  let i ← unwrapU indices.getLast?
  return (p, i)

/-- dense_tree.rs:249-262: one step of the climb. -/
def climbStep (root : Ptr) (branch : List Ptr) (indices : List Nat) (h : Heap) (N : Nat) :
    R (Heap × Bool) := do
  let node ← if N = 0 then Except.ok root else getP branch (N - 1)
  let i ← getP indices N
  let h ← nodeRemove h .branch node i
  let n ← deref h node
  if n.len ≠ 1 then return (h, true)
  else if N ≠ 0 then
    let h ← dropNode h .branch node
    return (h, false)
  else return (h, false)

/-- `Vec::swap_remove`; moving the value out requires it to be initialised. -/
def swapRemove {α : Type} (l : List (Option α)) (i : Nat) : R (α × List (Option α)) := do
  let v ← getP l i
  let v ← unwrapU v
  let last ← unwrapU l.getLast?
  return (v, (l.set i last).dropLast)

/-- dense_tree.rs:267-276: pop the last key and move it to the freed position. -/
def removeKey {α : Type} (D : Nat) (t : DT α) (index dataIndex : Nat) : R (DT α) := do
  let lastKey ← unwrapU t.keys.getLast?
  let keys := t.keys.dropLast
  if lastKey ≠ index then
    let keys ← setU keys dataIndex lastKey
    let indices ← levelIndices 1 D lastKey
    let (node, inner) ← getTerminalNode D t.heap t.root indices
    let h ← setChild t.heap .term node inner (.idx (dataIndex % 2 ^ 32))
    return { t with keys := keys, heap := h }
  else return { t with keys := keys }

/-- dense_tree.rs:241-264: remove the cell and prune empty nodes. -/
def removeCell {α : Type} (D : Nat) (t : DT α) (indices : List Nat) (branch : List Ptr)
    (terminal : Ptr) (inner : Nat) : R Heap := do
  let h ← nodeRemove t.heap .term terminal inner
  let n ← deref h terminal
  if n.len = 1 then
    let h ← dropNode h .term terminal
    let (h, _) ← constLoopRev 0 (D - 1) (climbStep t.root branch indices) h
    return h
  else return h

/-- dense_tree.rs:228-285 `remove`. -/
def remove {α : Type} (D : Nat) (t : DT α) (index : Nat) : R (DT α × Option α) := do
  let index ← indexFrom 1 D index
  let indices ← levelIndices 1 D index
  let branch ← getBranch D t indices
  let terminal ← unwrapU branch.getLast?
  let inner ← unwrapU indices.getLast?
  let cell ← getChild t.heap terminal inner
  let dataIndex ← cell.asIdx
  let key ← Hibit.getU t.keys dataIndex
  if key = index then
    let h ← removeCell D t indices branch terminal inner
    let t ← removeKey D { t with heap := h } index dataIndex
    let (v, data) ← swapRemove t.data dataIndex
    return ({ t with data := data }, some v)
  else return (t, none)

/-- dense_tree.rs:289-297 `key_values` (and 301-309 `key_values_mut`):
`get_unchecked(1..)` on both vectors. -/
def keyValues {α : Type} (t : DT α) : R (List Nat × List (Option α)) :=
  if 1 ≤ t.keys.length ∧ 1 ≤ t.data.length then .ok (t.keys.drop 1, t.data.drop 1)
  else .error .ub

/-- node.rs:359-373 `drop_node_with_childs::<N, LEVELS_COUNT>`, recursive on the number
`LEVELS_COUNT - N` of levels left. The mask iterator yields `Mask.ones` (theorem C06). -/
def dropNodeWithChilds : (levelsLeft : Nat) → Heap → Ptr → R Heap
  | 0, _, _ => .error .panic
  | 1, h, p => dropNode h .term p
  | r + 2, h, p => do
    let n ← deref h p
    let h ← (Mask.ones [n.mask]).foldlM (fun h i => do
      let c ← getChild h p i
      let q ← c.asPtr
      dropNodeWithChilds (r + 1) h q) h
    dropNode h .branch p

/-- `drop_in_place` of a slice: every element must be initialised; the list of dropped values. -/
def dropSlice {α : Type} : List (Option α) → R (List α)
  | [] => .ok []
  | v :: vs => do
    let v ← unwrapU v
    let rest ← dropSlice vs
    return v :: rest

/-- dense_tree.rs:312-323 `drop_impl` (run by `Drop`): the dropped values and the final heap. -/
def dropImpl {α : Type} (D : Nat) (t : DT α) : R (List α × Heap) := do
  if 1 ≤ t.data.length then
    let vs ← dropSlice (t.data.drop 1)
    let h ← dropNodeWithChilds D t.heap t.root
    return (vs, h)
  else .error .panic

/-- dense_tree.rs:365-378 `HibitTree::data`. -/
def treeData {α : Type} (D : Nat) (t : DT α) (index : Nat) (indices : List Nat) :
    R (Option α) := do
  let (node, inner) ← getTerminalNode D t.heap t.root indices
  let cell ← getChild t.heap node inner
  let dataIndex ← cell.asIdx
  let key ← Hibit.getU t.keys dataIndex
  if key = index then
    let v ← Hibit.getU t.data dataIndex
    let v ← unwrapU v
    return some v
  else return none

/-- dense_tree.rs:388-400 `Cursor`: `level_nodes`. -/
abbrev Cursor := List (Option Ptr)

/-- dense_tree.rs:438-442, 469-473: the node of the previous level. -/
def prevNode {α : Type} (c : Cursor) (t : DT α) (n : Nat) : R Ptr :=
  if n = 1 then .ok t.root
  else do
    let o ← Hibit.getU c (n - 1 - 1)
    unwrapU o

/-- dense_tree.rs:424-452 `select_level_node`. -/
def curSelect {α : Type} (D : Nat) (c : Cursor) (t : DT α) (n i : Nat) : R (Mask × Cursor) := do
  if n = 0 then
    let r ← deref t.heap t.root
    return ([r.mask], c)
  else
    let prev ← prevNode c t n
    let pn ← deref t.heap prev
    let contains ← pn.contains i
    let cell ← getChild t.heap prev i
    let node ← cell.asPtr
    let node ← if contains then Except.ok node else emptyNode n D
    let c ← setU c (n - 1) (some node)
    let nn ← deref t.heap node
    return ([nn.mask], c)

/-- dense_tree.rs:455-480 `select_level_node_unchecked`. -/
def curSelectU {α : Type} (c : Cursor) (t : DT α) (n i : Nat) : R (Mask × Cursor) := do
  if n = 0 then
    let r ← deref t.heap t.root
    return ([r.mask], c)
  else
    let prev ← prevNode c t n
    let cell ← getChild t.heap prev i
    let node ← cell.asPtr
    let c ← setU c (n - 1) (some node)
    let nn ← deref t.heap node
    return ([nn.mask], c)

/-- dense_tree.rs:488-493, 511-516: the selected terminal node. -/
def curTerminal {α : Type} (D : Nat) (c : Cursor) (t : DT α) : R Ptr :=
  if D = 1 then .ok t.root
  else do
    let o ← unwrapU c.getLast?
    unwrapU o

/-- dense_tree.rs:485-505 `Cursor::data`. -/
def curData {α : Type} (D : Nat) (c : Cursor) (t : DT α) (i : Nat) : R (Option α) := do
  let node ← curTerminal D c t
  let n ← deref t.heap node
  let contains ← n.contains i
  if contains then
    let cell ← getChild t.heap node i
    let dataIndex ← cell.asIdx
    let v ← Hibit.getU t.data dataIndex
    let v ← unwrapU v
    return some v
  else return none

/-- dense_tree.rs:508-520 `Cursor::data_unchecked`. -/
def curDataU {α : Type} (D : Nat) (c : Cursor) (t : DT α) (i : Nat) : R α := do
  let node ← curTerminal D c t
  let cell ← getChild t.heap node i
  let dataIndex ← cell.asIdx
  let v ← Hibit.getU t.data dataIndex
  unwrapU v

/-- dense_tree.rs:354-386 (tree) and 409-521 (cursor). -/
def impl (α : Type) (D : Nat) : Impl (DT α) Cursor α where
  N := 1
  D := D
  exact := true
  data := treeData D
  -- dense_tree.rs:381-385
  dataU := fun t index li => do let d ← treeData D t index li; unwrapU d
  -- dense_tree.rs:416-421
  new := fun _ => .ok (List.replicate (D - 1) none)
  select := curSelect D
  selectU := curSelectU
  curData := curData D
  curDataU := curDataU D

end Hibit.Dense
