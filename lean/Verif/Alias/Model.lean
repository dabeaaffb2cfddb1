import Verif.Dense.History
import Verif.Dense.Materialize
/-!
# DenseTree under Rust's aliasing rules (Stacked Borrows)

The functions of `src/dense_tree/node.rs` and `src/dense_tree.rs` once more, with every reference they make into a node
(`&NodeHeader`, `&mut NodeHeader`, `&T` and `&mut T` to a children cell, `&mut self.root`) and every access made through it
or through a raw pointer. Each place has a stack of borrows, and an access through a reference whose borrow is no longer
on the stack is undefined behaviour, as in "Stacked Borrows: An Aliasing Model for Rust" (Jung et al., POPL 2020).

The nodes are those of the cell model `Dense/Model`, whose addresses are never reused: an address stands for the
allocation, that is, for the provenance of the pointer `alloc` or `realloc` returned. `NodePtr` is a `NonNull` (node.rs:103-106)
and always has that provenance.

A reference passed to a function is protected while the function runs (`leave`): the `&self` of the methods of `NodeHeader` and the
mask given to `set_bit_unchecked`; the methods of `NodePtr` take it by value. Not modelled: two-phase borrows, borrows of the vectors `data` and `keys` (safe code), padding bytes.
-/
namespace Hibit.Alias
open Hibit Hibit.Dense

/-! ## Stacks of borrows -/

/-- The parts of a node (node.rs:53-67) that are accessed separately. -/
inductive Loc where
  | mask
  | cap
  | len
  | cell (d : Nat)
deriving DecidableEq, Repr

/-- A place in memory: the field `root` of the tree (dense_tree.rs:77), or a part of a node. -/
inductive Place where
  | root
  | node (p : Ptr) (l : Loc)
deriving DecidableEq, Repr

/-- What a borrow permits: `&mut` (Unique) or `&` (SharedReadOnly). Raw pointers made from references (SharedReadWrite) do not
occur: every raw pointer in node.rs is the allocation's own. -/
inductive Perm where
  | uniq
  | shared
deriving DecidableEq, Repr

/-- A borrow on a stack. -/
structure Item where
  perm : Perm
  tag : Nat
deriving DecidableEq, Repr

/-- Kinds of access. -/
inductive Acc where
  | read
  | write
deriving DecidableEq, Repr

/-- The pointer used for an access: a reference with its tag, or (`none`) the pointer at the bottom of the stack, which for a node
is the one `alloc` returned, for a static node the address of a `static` (read only), for `root` the `&mut self` of the method. -/
abbrev Tag := Option Nat

/-- Does this borrow allow the access through tag `t`? -/
def Item.grants (i : Item) (w : Acc) (t : Nat) : Bool :=
  decide (i.tag = t) && (decide (w = .read) || decide (i.perm = .uniq))

/-- May the bottom pointer be written through? The static `EMPTY_BRANCH` (node.rs:21-44) is immutable. -/
def baseWrites : Place → Bool
  | .node (.stat _) _ => false
  | _ => true

/-- An access to a place with stack `s` (top first; the bottom pointer is not listed). The topmost borrow that grants it must be
on the stack. A write removes every borrow above, a read every unique one above. -/
def access (pl : Place) (w : Acc) (t : Tag) (s : List Item) : R (List Item) :=
  match t, w with
  | none, .read => .ok (s.filter (fun i => i.perm = .shared))
  | none, .write => if baseWrites pl then .ok [] else .error .ub
  | some t, w =>
    match s.dropWhile (fun i => !i.grants w t) with
    | [] => .error .ub
    | rest =>
      if w = .write then .ok rest
      else .ok ((s.takeWhile (fun i => !i.grants w t)).filter (fun i => i.perm = .shared) ++ rest)

/-- The memory of one tree: its nodes, the field `root`, the borrows, and the next unused tag. -/
structure St where
  heap : Heap
  root : Ptr
  stk : Place → List Item
  next : Nat

/-- An access to one place. -/
def touch (pl : Place) (w : Acc) (t : Tag) (z : St) : R St := do
  let s ← access pl w t (z.stk pl)
  return { z with stk := upd z.stk pl s }

/-- The access a new borrow counts as. -/
def Perm.acc : Perm → Acc
  | .uniq => .write
  | .shared => .read

/-- `&mut *x` or `&*x` of the places `ps` through tag `t`: an access to each of them, then the new borrow is pushed. -/
def borrow (pm : Perm) (t : Tag) (n : Nat) : List Place → St → R St
  | [], z => .ok z
  | pl :: ps, z => do
    let s ← access pl pm.acc t (z.stk pl)
    borrow pm t n ps { z with stk := upd z.stk pl (⟨pm, n⟩ :: s) }

/-- A new reference; the result is its tag. -/
def retag (pm : Perm) (t : Tag) (ps : List Place) (z : St) : R (Tag × St) := do
  let z' ← borrow pm t z.next ps z
  return (some z.next, { z' with next := z.next + 1 })

/-- Several accesses through the bottom pointer. -/
def touchAll (w : Acc) : List Place → St → R St
  | [], z => .ok z
  | pl :: ps, z => do
    let z ← touch pl w none z
    touchAll w ps z

/-- The end of a call that got the reference `t` covering `ps` as an argument. Such a reference is protected: removing its borrow from
a stack before the call ends is undefined behaviour. A borrow that was removed never comes back (tags are new), so it is enough to
find it on all stacks at the end. -/
def leave (t : Tag) (ps : List Place) (z : St) : R Unit :=
  if ∀ pl ∈ ps, (z.stk pl).any (fun i => some i.tag == t) = true then .ok () else .error .ub

/-! ## Header fields and cells -/

/-- The places of `NodeHeader` (node.rs:53-67). -/
def hdr (p : Ptr) : List Place := [.node p .mask, .node p .cap, .node p .len]

/-- node.rs:110-112 `header()`. -/
def header (p : Ptr) (z : St) : R (Tag × St) := retag .shared none (hdr p) z

/-- node.rs:115-117 `header_mut()`. -/
def headerMut (p : Ptr) (z : St) : R (Tag × St) := retag .uniq none (hdr p) z

/-- `header.mask` read through the reference `t`. -/
def readMask (p : Ptr) (t : Tag) (z : St) : R (Word × St) := do
  let z ← touch (.node p .mask) .read t z
  let n ← deref z.heap p
  return (n.mask, z)

/-- `header.capacity` -/
def readCap (p : Ptr) (t : Tag) (z : St) : R (Nat × St) := do
  let z ← touch (.node p .cap) .read t z
  let n ← deref z.heap p
  return (n.cap, z)

/-- `header.len` -/
def readLen (p : Ptr) (t : Tag) (z : St) : R (Nat × St) := do
  let z ← touch (.node p .len) .read t z
  let n ← deref z.heap p
  return (n.len, z)

/-- A read of `*children_ptr.add(d)` through `t`. -/
def readCell (p : Ptr) (d : Nat) (t : Tag) (z : St) : R (Cell × St) := do
  let z ← touch (.node p (.cell d)) .read t z
  let n ← deref z.heap p
  let c ← getU n.cells d
  return (c, z)

/-- `header.mask = m` -/
def writeMask (p : Ptr) (t : Tag) (m : Word) (z : St) : R St := do
  let z ← touch (.node p .mask) .write t z
  let (a, n) ← derefMut z.heap p
  return { z with heap := z.heap.put a { n with mask := m } }

/-- `header.capacity = c` -/
def writeCap (p : Ptr) (t : Tag) (c : Nat) (z : St) : R St := do
  let z ← touch (.node p .cap) .write t z
  let (a, n) ← derefMut z.heap p
  return { z with heap := z.heap.put a { n with cap := c } }

/-- `header.len = l` -/
def writeLen (p : Ptr) (t : Tag) (l : Nat) (z : St) : R St := do
  let z ← touch (.node p .len) .write t z
  let (a, n) ← derefMut z.heap p
  return { z with heap := z.heap.put a { n with len := l } }

/-- A write of `*children_mut_ptr.add(d)` through `t`. -/
def writeCell (p : Ptr) (d : Nat) (t : Tag) (c : Cell) (z : St) : R St := do
  let z ← touch (.node p (.cell d)) .write t z
  let (a, n) ← derefMut z.heap p
  let cells ← setU n.cells d c
  return { z with heap := z.heap.put a { n with cells := cells } }

/-- `T` must be the child type of the node. -/
def checkKind (p : Ptr) (k : Kind) (z : St) : R Unit := do
  let (_, n) ← derefMut z.heap p
  if n.kind ≠ k then .error .ub else return ()

/-- `alloc(layout)`; the new block has no borrows. -/
def alloc (n : Node) (z : St) : Nat × St :=
  let r := z.heap.alloc n
  (r.2, { z with heap := r.1, stk := fun pl => match pl with
    | .node (.heap x) l => if x = r.2 then [] else z.stk (.node (.heap x) l)
    | pl => z.stk pl })

/-- The places of a block with `c` cells. -/
def places (p : Ptr) (c : Nat) : List Place := hdr p ++ (List.range c).map (fun d => .node p (.cell d))

/-- `dealloc(ptr, layout)`: counts as a write to the whole block through the pointer given. -/
def dealloc (p : Ptr) (k : Kind) (cap : Nat) (z : St) : R St := do
  let (a, n) ← derefMut z.heap p
  let z ← touchAll .write (places p n.cells.length) z
  let h ← z.heap.dealloc a k cap
  return { z with heap := h }

/-! ## Node operations -/

/-- node.rs:98-100 `contains(&self)`: `self` is borrowed from `t`. -/
def contains (p : Ptr) (t : Tag) (index : Nat) (z : St) : R (Bool × St) := do
  let (t, z) ← retag .shared t (hdr p) z
  let (m, z) ← readMask p t z
  let c ← getBitUnchecked m index
  leave t (hdr p) z
  return (c, z)

/-- node.rs:87-95 `get_dense_index(&self)`: `self` is borrowed from `t`. -/
def denseIdx (p : Ptr) (t : Tag) (index : Nat) (z : St) : R (Nat × St) := do
  let (t, z) ← retag .shared t (hdr p) z
  let (m, z) ← readMask p t z
  let d ← denseIndex m index
  leave t (hdr p) z
  return (d, z)

/-- `header().contains(index)`. -/
def headerContains (p : Ptr) (index : Nat) (z : St) : R (Bool × St) := do
  let (t, z) ← header p z
  contains p t index z

/-- `*header().mask()` (node.rs:79-81): `&self` and the result are borrowed in turn. -/
def maskOf (p : Ptr) (z : St) : R (Word × St) := do
  let (t, z) ← header p z
  let (t, z) ← retag .shared t (hdr p) z
  let (u, z) ← retag .shared t [.node p .mask] z
  leave t (hdr p) z
  readMask p u z

/-- `header().len()` (node.rs:74-76). -/
def lenOf (p : Ptr) (z : St) : R (Nat × St) := do
  let (t, z) ← header p z
  let (t, z) ← retag .shared t (hdr p) z
  let (l, z) ← readLen p t z
  leave t (hdr p) z
  return (l, z)

/-- `*get_child(index)` (node.rs:149-152). -/
def getChild (p : Ptr) (index : Nat) (z : St) : R (Cell × St) := do
  let (t, z) ← header p z
  let (d, z) ← denseIdx p t index z
  let (t, z) ← retag .shared none [.node p (.cell d)] z
  readCell p d t z

/-- node.rs:155-158 `get_child_mut(index)`: the position and the tag of the `&mut T`. -/
def getChildMut (p : Ptr) (index : Nat) (z : St) : R (Nat × Tag × St) := do
  let (_, _) ← derefMut z.heap p
  let (t, z) ← header p z
  let (d, z) ← denseIdx p t index z
  let (t, z) ← retag .uniq none [.node p (.cell d)] z
  return (d, t, z)

/-- node.rs:193-208 `NodePtr::new`: raw writes (`addr_of_mut!`). -/
def nodeNew (k : Kind) (cap : Nat) (emptyChild : Cell) (z : St) : R (Nat × St) := do
  let (a, z) := alloc ⟨k, 0, 0, 0, List.replicate cap .uninit⟩ z
  let z ← writeMask (.heap a) none 0 z
  if cap ≥ 1 then
    let z ← writeCap (.heap a) none cap z
    let z ← writeLen (.heap a) none 1 z
    let z ← writeCell (.heap a) 0 none emptyChild z
    return (a, z)
  else .error .panic

/-- node.rs:304-317: `node` is a `&NodeHeader`; `realloc` and the write of the capacity go through raw pointers. The result is
the new `self.0`. -/
def nodeGrow (k : Kind) (p : Ptr) (z : St) : R (Ptr × St) := do
  let (t, z) ← header p z
  let (cap, z) ← readCap p t z
  let (len, z) ← readLen p t z
  if len = cap then
    let newCap ← if cap * 2 < 256 then Except.ok (cap * 2) else .error .panic
    let (_, n) ← derefMut z.heap p
    let z ← dealloc p k cap z
    let (a, z) := alloc { n with cells := n.cells ++ List.replicate (newCap - n.cells.length) .uninit } z
    let z ← writeCap (.heap a) none newCap z
    return (.heap a, z)
  else return (p, z)

/-- `ptr::copy(p + src, p + dst, cnt)` through the raw pointer `children_mut_ptr`. -/
def copyCells (p : Ptr) (src dst cnt : Nat) (z : St) : R St := do
  let z ← touchAll .read ((List.range cnt).map (fun i => .node p (.cell (src + i)))) z
  let z ← touchAll .write ((List.range cnt).map (fun i => .node p (.cell (dst + i)))) z
  let (a, n) ← derefMut z.heap p
  let cells ← Dense.copyCells n.cells src dst cnt
  return { z with heap := z.heap.put a { n with cells := cells } }

/-- `set_bit_unchecked::<BIT>(&mut header.mask, index)`: the mask is borrowed from `header`. -/
def setBit (b : Bool) (p : Ptr) (t : Tag) (index : Nat) (z : St) : R St := do
  let (t, z) ← retag .uniq t [.node p .mask] z
  let (m, z) ← readMask p t z
  let (_, m) ← setBitUnchecked b m index
  let z ← writeMask p t m z
  leave t [.node p .mask] z
  return z

/-- node.rs:298-335 `insert`: `header` is a `&mut NodeHeader` that lives to the end. The position of the new child and the
(possibly new) pointer to the node. -/
def nodeInsert (k : Kind) (p : Ptr) (index : Nat) (value : Cell) (z : St) : R (Nat × Ptr × St) := do
  checkKind p k z
  let (p, z) ← nodeGrow k p z
  let (t, z) ← headerMut p z
  let z ← setBit true p t index z
  let (d, z) ← denseIdx p t index z
  let (len, z) ← readLen p t z
  let cnt ← if d ≤ len then Except.ok (len - d) else .error .panic
  let z ← copyCells p d (d + 1) cnt z
  let z ← writeCell p d none value z
  let (len, z) ← readLen p t z
  let len ← if len + 1 < 256 then Except.ok (len + 1) else .error .panic
  let z ← writeLen p t len z
  return (d, p, z)

/-- node.rs:338-348 `remove`. -/
def nodeRemove (k : Kind) (p : Ptr) (index : Nat) (z : St) : R St := do
  checkKind p k z
  let (t, z) ← headerMut p z
  let (d, z) ← denseIdx p t index z
  let z ← setBit false p t index z
  let (len, z) ← readLen p t z
  let cnt ← if d + 1 ≤ len then Except.ok (len - d - 1) else .error .panic
  let z ← copyCells p (d + 1) d cnt z
  let (len, z) ← readLen p t z
  writeLen p t (len - 1) z

/-- node.rs:352-356 `drop_node`: `self.0.as_ref().capacity`, then `dealloc`. -/
def dropNode (k : Kind) (p : Ptr) (z : St) : R St := do
  let (t, z) ← header p z
  let (cap, z) ← readCap p t z
  dealloc p k cap z

/-- `*get_child_mut::<T>(index) = value`. -/
def setChild (k : Kind) (p : Ptr) (index : Nat) (value : Cell) (z : St) : R St := do
  checkKind p k z
  let (d, t, z) ← getChildMut p index z
  writeCell p d t value z

/-! ## The tree -/

/-- The place a `&mut NodePtr` points to. -/
def slotPlace : Slot → Place
  | .root => .root
  | .cell a d => .node (.heap a) (.cell d)

/-- `*node` of dense_tree.rs:128-153, through the `&mut NodePtr` with tag `t`. -/
def readSlot (s : Slot) (t : Tag) (z : St) : R (Ptr × St) := do
  match s with
  | .root =>
    let z ← touch .root .read t z
    return (z.root, z)
  | .cell a d =>
    let (c, z) ← readCell (.heap a) d t z
    let q ← c.asPtr
    return (q, z)

/-- `*node = p`. -/
def writeSlot (s : Slot) (t : Tag) (p : Ptr) (z : St) : R St := do
  match s with
  | .root =>
    let z ← touch .root .write t z
    return { z with root := p }
  | .cell a d =>
    checkKind (.heap a) .branch z
    writeCell (.heap a) d t (.ptr p) z

/-- The variable `node: &mut NodePtr` of dense_tree.rs:128 with the memory. -/
structure Walk where
  slot : Slot
  tag : Tag
  st : St

/-- dense_tree.rs:141-147: the new child of a node of level `N`. -/
def newChild (D N : Nat) (z : St) : R (Nat × St) :=
  if N = D - 2 then nodeNew .term defaultCap (.idx 0) z
  else do
    let e ← emptyNode (N + 2) D
    nodeNew .branch defaultCap (.ptr e) z

/-- dense_tree.rs:130-152. The slot is read and written through `node`; meanwhile the child it points to is changed. -/
def insertStep (D : Nat) (indices : List Nat) (w : Walk) (N : Nat) : R (Walk × Bool) := do
  let innerIndex ← getP indices N
  let (p, z) ← readSlot w.slot w.tag w.st
  let (c, z) ← headerContains p innerIndex z
  if c then
    match p with
    | .heap a =>
      let (d, t, z) ← getChildMut p innerIndex z
      return (⟨.cell a d, t, z⟩, false)
    | .stat _ => .error .ub
  else
    let (child, z) ← newChild D N z
    let (d, p, z) ← nodeInsert .branch p innerIndex (.ptr (.heap child)) z
    let z ← writeSlot w.slot w.tag p z
    match p with
    | .heap a =>
      let (t, z) ← retag .uniq none [.node p (.cell d)] z
      return (⟨.cell a d, t, z⟩, false)
    | .stat _ => .error .ub

/-- dense_tree.rs:125-153: `node = &mut self.root`, then the loop. -/
def insertWalk (D : Nat) (indices : List Nat) (z : St) : R Walk := do
  let (t, z) ← retag .uniq none [.root] z
  let (w, _) ← constLoop 0 (D - 1) (insertStep D indices) ⟨.root, t, z⟩
  return w

/-- The vectors of the tree. -/
structure Vecs (α : Type) where
  data : List (Option α)
  keys : List Nat

/-- Result of `get_or_insert_impl`, see `Dense.InsOut`. -/
structure InsOut (α : Type) where
  st : St
  vecs : Vecs α
  dataIndex : Nat
  dropped : List α

/-- dense_tree.rs:119-176 `get_or_insert_impl`. -/
def getOrInsertImpl {α : Type} (D : Nat) (v : Vecs α) (index : Nat) (ins : Bool) (value : α) (z : St) :
    R (InsOut α) := do
  let indices ← levelIndices 1 D index
  let w ← insertWalk D indices z
  let (p, z) ← readSlot w.slot w.tag w.st
  let innerIndex ← unwrapU indices.getLast?
  let (c, z) ← headerContains p innerIndex z
  if c then
    let (cell, z) ← getChild p innerIndex z
    let i ← cell.asIdx
    if ins then
      let old ← getU v.data i
      let old ← unwrapU old
      let data ← setU v.data i (some value)
      return ⟨z, { v with data := data }, i, [old]⟩
    else
      let old ← getU v.data i
      let _ ← unwrapU old
      return ⟨z, v, i, []⟩
  else
    let i := v.data.length
    let (_, p, z) ← nodeInsert .term p innerIndex (.idx (i % 2 ^ 32)) z
    let z ← writeSlot w.slot w.tag p z
    return ⟨z, ⟨v.data ++ [some value], v.keys ++ [index]⟩, i, []⟩

/-- dense_tree.rs:202-207. -/
def branchLoop (indices : List Nat) : List Nat → Ptr → St → R (List Ptr × St)
  | [], _, z => .ok ([], z)
  | n :: ns, p, z => do
    let innerIndex ← getP indices n
    let (c, z) ← getChild p innerIndex z
    let q ← c.asPtr
    let (rest, z) ← branchLoop indices ns q z
    return (q :: rest, z)

/-- dense_tree.rs:218-222. -/
def terminalLoop (indices : List Nat) : List Nat → Ptr → St → R (Ptr × St)
  | [], p, z => .ok (p, z)
  | n :: ns, p, z => do
    let innerIndex ← getU indices n
    let (c, z) ← getChild p innerIndex z
    let q ← c.asPtr
    terminalLoop indices ns q z

/-- `self.root`, read through `self`. -/
def readRoot (z : St) : R (Ptr × St) := do
  let z ← touch .root .read none z
  return (z.root, z)

/-- dense_tree.rs:216-225 `get_terminal_node`. -/
def getTerminalNode (D : Nat) (indices : List Nat) (z : St) : R (Ptr × Nat × St) := do
  let (r, z) ← readRoot z
  let (p, z) ← terminalLoop indices (List.range (D - 1)) r z
  let i ← unwrapU indices.getLast?
  return (p, i, z)

/-- dense_tree.rs:250-254. -/
def climbNode (branch : List Ptr) (N : Nat) (z : St) : R (Ptr × St) :=
  if N = 0 then readRoot z
  else do
    let p ← getP branch (N - 1)
    return (p, z)

/-- dense_tree.rs:249-262. -/
def climbStep (branch : List Ptr) (indices : List Nat) (z : St) (N : Nat) : R (St × Bool) := do
  let (node, z) ← climbNode branch N z
  let i ← getP indices N
  let z ← nodeRemove .branch node i z
  let (len, z) ← lenOf node z
  if len ≠ 1 then return (z, true)
  else if N ≠ 0 then
    let z ← dropNode .branch node z
    return (z, false)
  else return (z, false)

/-- dense_tree.rs:241-264. -/
def removeCell (D : Nat) (indices : List Nat) (branch : List Ptr) (terminal : Ptr) (inner : Nat) (z : St) : R St := do
  let z ← nodeRemove .term terminal inner z
  let (len, z) ← lenOf terminal z
  if len = 1 then
    let z ← dropNode .term terminal z
    let (z, _) ← constLoopRev 0 (D - 1) (climbStep branch indices) z
    return z
  else return z

/-- dense_tree.rs:267-276. -/
def removeKey (D : Nat) (keys : List Nat) (index dataIndex : Nat) (z : St) : R (List Nat × St) := do
  let lastKey ← unwrapU keys.getLast?
  let keys := keys.dropLast
  if lastKey ≠ index then
    let keys ← setU keys dataIndex lastKey
    let indices ← levelIndices 1 D lastKey
    let (node, inner, z) ← getTerminalNode D indices z
    let z ← setChild .term node inner (.idx (dataIndex % 2 ^ 32)) z
    return (keys, z)
  else return (keys, z)

/-- dense_tree.rs:228-285 `remove` (after `index.into()`). -/
def remove {α : Type} (D : Nat) (v : Vecs α) (index : Nat) (z : St) : R (Vecs α × Option α × St) := do
  let index ← indexFrom 1 D index
  let indices ← levelIndices 1 D index
  let (r, z) ← readRoot z
  let (branch, z) ← branchLoop indices (List.range (D - 1)) r z
  let terminal ← unwrapU branch.getLast?
  let inner ← unwrapU indices.getLast?
  let (cell, z) ← getChild terminal inner z
  let dataIndex ← cell.asIdx
  let key ← getU v.keys dataIndex
  if key = index then
    let z ← removeCell D indices branch terminal inner z
    let (keys, z) ← removeKey D v.keys index dataIndex z
    let (x, data) ← swapRemove v.data dataIndex
    return (⟨data, keys⟩, some x, z)
  else return (v, none, z)

/-- dense_tree.rs:92-112 `default()`; nothing is borrowed. -/
def default (α : Type) (D : Nat) : R (Vecs α × St) := do
  let z : St := ⟨⟨fun _ => none, 0⟩, .stat 0, fun _ => [], 0⟩
  let (a, z) ←
    if D = 1 then nodeNew .term defaultCap (.idx 0) z
    else do
      let e ← emptyNode 1 D
      nodeNew .branch defaultCap (.ptr e) z
  return (⟨[none], [usizeMod - 1]⟩, { z with root := .heap a })

/-- node.rs:359-373 `drop_node_with_childs`: each child is a `&mut NodePtr` made by `children_mut_iter` (node.rs:170-179). -/
def dropNodeWithChilds : (levelsLeft : Nat) → Ptr → St → R St
  | 0, _, _ => .error .panic
  | 1, p, z => dropNode .term p z
  | r + 2, p, z => do
    let (m, z) ← maskOf p z
    let z ← (Mask.ones [m]).foldlM (fun z i => do
      let (d, t, z) ← getChildMut p i z
      let (c, z) ← readCell p d t z
      let q ← c.asPtr
      dropNodeWithChilds (r + 1) q z) z
    dropNode .branch p z

/-- dense_tree.rs:312-323 `drop_impl`. -/
def dropImpl {α : Type} (D : Nat) (v : Vecs α) (z : St) : R (List α × St) := do
  if 1 ≤ v.data.length then
    let vs ← dropSlice (v.data.drop 1)
    let (r, z) ← readRoot z
    let z ← dropNodeWithChilds D r z
    return (vs, z)
  else .error .panic

/-- dense_tree.rs:365-378 `HibitTree::data`. -/
def treeData {α : Type} (D : Nat) (v : Vecs α) (index : Nat) (indices : List Nat) (z : St) : R (Option α × St) := do
  let (node, inner, z) ← getTerminalNode D indices z
  let (cell, z) ← getChild node inner z
  let dataIndex ← cell.asIdx
  let key ← getU v.keys dataIndex
  if key = index then
    let x ← getU v.data dataIndex
    let x ← unwrapU x
    return (some x, z)
  else return (none, z)

/-- hibit_tree.rs:168-176 `get`. -/
def get {α : Type} (D : Nat) (v : Vecs α) (index : Nat) (z : St) : R (Option α × St) := do
  let index ← indexFrom 1 D index
  let indices ← levelIndices 1 D index
  treeData D v index indices z

/-! ## Histories -/

/-- As `Dense.step`. -/
def step {α : Type} (D : Nat) (v : Vecs α) (z : St) : Op α → R (Vecs α × (Option α × List α) × St)
  | .insert k x => do
    let k ← indexFrom 1 D k
    let out ← getOrInsertImpl D v k true x z
    return (out.vecs, (none, out.dropped), out.st)
  | .getOrInsert k dflt g => do
    let k ← indexFrom 1 D k
    let out ← getOrInsertImpl D v k false dflt z
    let old ← getU out.vecs.data out.dataIndex
    let old ← unwrapU old
    let data ← setU out.vecs.data out.dataIndex (some (g old))
    return ({ out.vecs with data := data }, (some old, out.dropped), out.st)
  | .remove k => do
    let (v, x, z) ← remove D v k z
    return (v, (x, []), z)
  | .get k => do
    let (x, z) ← get D v k z
    return (v, (x, []), z)
  | .mutValues g =>
    if 1 ≤ v.keys.length ∧ 1 ≤ v.data.length then
      .ok ({ v with data := v.data.take 1 ++ List.zipWith (fun k x => x.map (g k)) (v.keys.drop 1) (v.data.drop 1) },
        (none, []), z)
    else .error .ub

/-- As `Dense.run`. -/
def run {α : Type} (D : Nat) (v : Vecs α) (z : St) : List (Op α) → R (Vecs α × List (Option α × List α) × St)
  | [] => .ok (v, [], z)
  | op :: ops => do
    let (v, o, z) ← step D v z op
    let (v, os, z) ← run D v z ops
    return (v, o :: os, z)

end Hibit.Alias
