import Verif.Threads.Prog
/-!
# The operations of a DenseTree, access by access

`src/dense_tree.rs` and `src/dense_tree/node.rs` once more, now as programs: every load, store, copy and allocator
call is a separate step. `root`, `data` and `keys` are private to the thread that owns the tree: the vectors and the
variable that holds the tree. A header or child access is one step (of 1 to 8 bytes), a `ptr::copy` is one
step; C86 shows that no other thread touches the block at that time, so that a finer division makes no difference.
-/
namespace Hibit.Threads
open Hibit Hibit.Dense Hibit.Bytes

/-- A load of `size` bytes. -/
def rd (p : Ptr) (off size align : Nat) : Prog (List MByte) := Prog.step (.load p off size align)
/-- A store. -/
def wr (p : Ptr) (off align : Nat) (v : List MByte) : Prog Unit := Prog.step (.store p off align v)
/-- `ptr::copy`. -/
def mv (p : Ptr) (src dst size align : Nat) : Prog Unit := Prog.step (.move p src dst size align)
/-- `alloc`. -/
def newBlock (size : Nat) : Prog Nat := Prog.step (.alloc size)
/-- `dealloc`. -/
def freeBlock (p : Ptr) (size : Nat) : Prog Unit := Prog.step (.free p size)
/-- `realloc`. -/
def growBlock (p : Ptr) (size newSize : Nat) : Prog Nat := Prog.step (.realloc p size newSize)

/-! ## Header fields and children -/

/-- `header.mask` (node.rs:54) -/
def getMask (p : Ptr) : Prog Word := do
  let v ← rd p maskOff 8 8
  let n ← Prog.lift (leVal v)
  return BitVec.ofNat 64 n

/-- `header.mask = m` -/
def putMask (p : Ptr) (m : Word) : Prog Unit := wr p maskOff 8 (leBytes 8 m.toNat)

/-- `header.capacity` (node.rs:56) -/
def getCap (p : Ptr) : Prog Nat := do
  let v ← rd p capOff 1 1
  Prog.lift (leVal v)

/-- `header.capacity = c` -/
def putCap (p : Ptr) (c : Nat) : Prog Unit := wr p capOff 1 (leBytes 1 c)

/-- `header.len` (node.rs:57) -/
def getLen (p : Ptr) : Prog Nat := do
  let v ← rd p lenOff 1 1
  Prog.lift (leVal v)

/-- `header.len = l` -/
def putLen (p : Ptr) (l : Nat) : Prog Unit := wr p lenOff 1 (leBytes 1 l)

/-- `*children_ptr::<NodePtr>().add(d)` (node.rs:124-128) -/
def childPtr (p : Ptr) (d : Nat) : Prog Ptr := do
  let v ← rd p (childOff .branch d) 8 8
  Prog.lift (ptrVal v)

/-- `*children_ptr::<DataIndex>().add(d)` (node.rs:124-128) -/
def childIdx (p : Ptr) (d : Nat) : Prog Nat := do
  let v ← rd p (childOff .term d) 4 4
  Prog.lift (leVal v)

/-- `children_mut_ptr::<T>().add(d).write(c)` (node.rs:130-134) -/
def putChild (k : Kind) (p : Ptr) (d : Nat) (c : Cell) : Prog Unit := do
  let v ← Prog.lift (childBytes k c)
  wr p (childOff k d) (tsize k) v

/-- node.rs:98-100 `contains` -/
def contains (p : Ptr) (index : Nat) : Prog Bool := do
  let m ← getMask p
  Prog.lift (getBitUnchecked m index)

/-- node.rs:87-95 `get_dense_index` -/
def denseOf (p : Ptr) (index : Nat) : Prog Nat := do
  let m ← getMask p
  Prog.lift (denseIndex m index)

/-- node.rs:149-152 `get_child::<NodePtr>` -/
def getChildPtr (p : Ptr) (index : Nat) : Prog Ptr := do
  let d ← denseOf p index
  childPtr p d

/-- node.rs:149-152 `get_child::<DataIndex>` -/
def getChildIdx (p : Ptr) (index : Nat) : Prog Nat := do
  let d ← denseOf p index
  childIdx p d

/-! ## Node operations -/

/-- node.rs:193-208 `new`. -/
def nodeNew (k : Kind) (cap : Nat) (emptyChild : Cell) : Prog Ptr := do
  let a ← newBlock (layoutSize k cap)
  putMask (.heap a) 0
  if cap ≥ 1 then
    putCap (.heap a) cap
    putLen (.heap a) 1
    putChild k (.heap a) 0 emptyChild
    return .heap a
  else .err .panic

/-- node.rs:304-317: `realloc` of a full node. -/
def nodeGrow (k : Kind) (p : Ptr) : Prog Ptr := do
  let cap ← getCap p
  let len ← getLen p
  if len = cap then
    let newCap ← Prog.lift (if cap * 2 < 256 then Except.ok (cap * 2) else .error .panic)
    let a ← growBlock p (layoutSize k cap) (layoutSize k newCap)
    putCap (.heap a) newCap
    return .heap a
  else return p

/-- node.rs:298-335 `insert`: the position of the new child, and the node. -/
def nodeInsert (k : Kind) (p : Ptr) (index : Nat) (value : Cell) : Prog (Nat × Ptr) := do
  let p ← nodeGrow k p
  let m ← getMask p
  let r ← Prog.lift (setBitUnchecked true m index)
  putMask p r.2
  let m ← getMask p
  let d ← Prog.lift (denseIndex m index)
  let len ← getLen p
  let cnt ← Prog.lift (if d ≤ len then Except.ok (len - d) else .error .panic)
  mv p (childOff k d) (childOff k (d + 1)) (tsize k * cnt) (tsize k)
  putChild k p d value
  let len ← getLen p
  let len ← Prog.lift (if len + 1 < 256 then Except.ok (len + 1) else .error .panic)
  putLen p len
  return (d, p)

/-- node.rs:338-348 `remove`. -/
def nodeRemove (k : Kind) (p : Ptr) (index : Nat) : Prog Unit := do
  let m ← getMask p
  let d ← Prog.lift (denseIndex m index)
  let r ← Prog.lift (setBitUnchecked false m index)
  putMask p r.2
  let len ← getLen p
  let cnt ← Prog.lift (if d + 1 ≤ len then Except.ok (len - d - 1) else .error .panic)
  mv p (childOff k (d + 1)) (childOff k d) (tsize k * cnt) (tsize k)
  let len ← getLen p
  let len ← Prog.lift (if 1 ≤ len then Except.ok (len - 1) else .error .panic)
  putLen p len

/-- node.rs:352-356 `drop_node`. -/
def dropNode (k : Kind) (p : Ptr) : Prog Unit := do
  let cap ← getCap p
  freeBlock p (layoutSize k cap)

/-- `*node.get_child_mut::<T>(index) = value` (node.rs:155-158). -/
def setChild (k : Kind) (p : Ptr) (index : Nat) (value : Cell) : Prog Unit := do
  let m ← getMask p
  let d ← Prog.lift (denseIndex m index)
  putChild k p d value

/-! ## Loops -/

/-- const_loop.rs:7-15, `constLoopFwd` with a program as body. -/
def loopFwd {σ : Type} (start stop : Nat) (v : σ → Nat → Prog (σ × Bool)) : List Nat → σ → Prog (σ × Bool)
  | [], s => .ret (s, false)
  | i :: is, s =>
    if stop = i then .ret (s, false)
    else if start ≤ i then do
      let r ← v s i
      if r.2 then return (r.1, true) else loopFwd start stop v is r.1
    else loopFwd start stop v is s

/-- const_loop.rs:18-26, `constLoopRevGo` with a program as body. -/
def loopRevGo {σ : Type} (start stop : Nat) (v : σ → Nat → Prog (σ × Bool)) : List Nat → σ → Prog (σ × Bool)
  | [], s => .ret (s, false)
  | i :: is, s =>
    if start ≤ i ∧ i < stop then do
      let r ← v s i
      if r.2 then return (r.1, true) else loopRevGo start stop v is r.1
    else loopRevGo start stop v is s

/-- const_loop.rs:33-41 `const_loop!(N in start..end => body)`. -/
def loop {σ : Type} (start stop : Nat) (v : σ → Nat → Prog (σ × Bool)) (s : σ) : Prog (σ × Bool) :=
  if stop < 9 ∧ start ≤ stop then loopFwd start stop v [0,1,2,3,4,5,6,7,8] s else .err .panic

/-- const_loop.rs:47-55 `const_loop!(N in start..end rev => body)`. -/
def loopRev {σ : Type} (start stop : Nat) (v : σ → Nat → Prog (σ × Bool)) (s : σ) : Prog (σ × Bool) :=
  if stop < 9 ∧ start ≤ stop then loopRevGo start stop v [8,7,6,5,4,3,2,1,0] s else .err .panic

/-- A `for_each` over a list of indices. -/
def each (f : Nat → Prog Unit) : List Nat → Prog Unit
  | [] => .ret ()
  | i :: is => do
    f i
    each f is

/-! ## The tree -/

/-- dense_tree.rs:73-90 `DenseTree`: the part that is private to the thread. -/
structure Tree (α : Type) where
  root : Ptr
  data : List (Option α)
  keys : List Nat

/-- The tree with its nodes in the memory `h`. -/
def Tree.inMem {α : Type} (t : Tree α) (h : BHeap) : BT α := ⟨h, t.root, t.data, t.keys⟩

/-- The tree apart from its nodes. -/
def ofBT {α : Type} (t : BT α) : Tree α := ⟨t.root, t.data, t.keys⟩

/-- dense_tree.rs:92-112 `default()`. -/
def newTree (α : Type) (D : Nat) : Prog (Tree α) := do
  if D = 1 then
    let p ← nodeNew .term defaultCap (.idx 0)
    return ⟨p, [none], [usizeMod - 1]⟩
  else
    let e ← Prog.lift (emptyNode 1 D)
    let p ← nodeNew .branch defaultCap (.ptr e)
    return ⟨p, [none], [usizeMod - 1]⟩

/-- Loop state of dense_tree.rs:128-153: `root` and the place the `&mut NodePtr` points to. -/
structure Spot where
  root : Ptr
  slot : Slot

/-- `*node` (read). -/
def Spot.read (w : Spot) : Prog Ptr :=
  match w.slot with
  | .root => .ret w.root
  | .cell a d => childPtr (.heap a) d

/-- `*node = p`. -/
def Spot.write (w : Spot) (p : Ptr) : Prog Spot :=
  match w.slot with
  | .root => .ret { w with root := p }
  | .cell a d => do
    putChild .branch (.heap a) d (.ptr p)
    return w

/-- The place of child `d` of the node `p`, for writing; the static nodes are immutable. -/
def slotOf (p : Ptr) (d : Nat) : Prog Slot :=
  match p with
  | .heap a => .ret (.cell a d)
  | .stat _ => .err .ub

/-- dense_tree.rs:130-152. -/
def insertStep (D : Nat) (indices : List Nat) (w : Spot) (N : Nat) : Prog (Spot × Bool) := do
  let innerIndex ← Prog.lift (getP indices N)
  let nodePtr ← w.read
  let c ← contains nodePtr innerIndex
  if c then
    let d ← denseOf nodePtr innerIndex
    let slot ← slotOf nodePtr d
    return (⟨w.root, slot⟩, false)
  else
    let r ← if N = D - 2 then do
        let child ← nodeNew .term defaultCap (.idx 0)
        nodeInsert .branch nodePtr innerIndex (.ptr child)
      else do
        let e ← Prog.lift (emptyNode (N + 2) D)
        let child ← nodeNew .branch defaultCap (.ptr e)
        nodeInsert .branch nodePtr innerIndex (.ptr child)
    let w ← w.write r.2
    let slot ← slotOf r.2 r.1
    return (⟨w.root, slot⟩, false)

/-- dense_tree.rs:125-153. -/
def insertWalk (D : Nat) (root : Ptr) (indices : List Nat) : Prog Spot := do
  let r ← loop 0 (D - 1) (insertStep D indices) ⟨root, .root⟩
  return r.1

/-- Result of `get_or_insert_impl`. -/
structure InsOut (α : Type) where
  tree : Tree α
  dataIndex : Nat
  dropped : List α
  called : Bool

/-- dense_tree.rs:119-176 `get_or_insert_impl`. -/
def getOrInsertImpl {α : Type} (D : Nat) (t : Tree α) (index : Nat) (ins : Bool) (value : α) :
    Prog (InsOut α) := do
  let indices ← Prog.lift (levelIndices 1 D index)
  let w ← insertWalk D t.root indices
  let nodePtr ← w.read
  let innerIndex ← Prog.lift (unwrapU indices.getLast?)
  let c ← contains nodePtr innerIndex
  if c then
    let i ← getChildIdx nodePtr innerIndex
    let old ← Prog.lift (getU t.data i)
    let old ← Prog.lift (unwrapU old)
    if ins then
      let data ← Prog.lift (setU t.data i (some value))
      return ⟨⟨w.root, data, t.keys⟩, i, [old], true⟩
    else return ⟨⟨w.root, t.data, t.keys⟩, i, [], false⟩
  else
    let i := t.data.length
    let r ← nodeInsert .term nodePtr innerIndex (.idx (i % 2 ^ 32))
    let w ← w.write r.2
    return ⟨⟨w.root, t.data ++ [some value], t.keys ++ [index]⟩, i, [], true⟩

/-- dense_tree.rs:186-189 `insert`. -/
def insert {α : Type} (D : Nat) (t : Tree α) (index : Nat) (value : α) : Prog (InsOut α) := do
  let index ← Prog.lift (indexFrom 1 D index)
  getOrInsertImpl D t index true value

/-- dense_tree.rs:178-184 `get_or_insert`. -/
def getOrInsert {α : Type} (D : Nat) (t : Tree α) (index : Nat) (dflt : α) : Prog (InsOut α) := do
  let index ← Prog.lift (indexFrom 1 D index)
  getOrInsertImpl D t index false dflt

/-- dense_tree.rs:202-207. -/
def branchLoop (indices : List Nat) : List Nat → Ptr → Prog (List Ptr)
  | [], _ => .ret []
  | n :: ns, p => do
    let innerIndex ← Prog.lift (getP indices n)
    let q ← getChildPtr p innerIndex
    let rest ← branchLoop indices ns q
    return q :: rest

/-- dense_tree.rs:218-222. -/
def terminalLoop (indices : List Nat) : List Nat → Ptr → Prog Ptr
  | [], p => .ret p
  | n :: ns, p => do
    let innerIndex ← Prog.lift (getU indices n)
    let q ← getChildPtr p innerIndex
    terminalLoop indices ns q

/-- dense_tree.rs:216-225 `get_terminal_node`. -/
def getTerminalNode (D : Nat) (root : Ptr) (indices : List Nat) : Prog (Ptr × Nat) := do
  let p ← terminalLoop indices (List.range (D - 1)) root
  let i ← Prog.lift (unwrapU indices.getLast?)
  return (p, i)

/-- dense_tree.rs:249-262. -/
def climbStep (root : Ptr) (branch : List Ptr) (indices : List Nat) (_ : Unit) (N : Nat) :
    Prog (Unit × Bool) := do
  let node ← Prog.lift (if N = 0 then Except.ok root else getP branch (N - 1))
  let i ← Prog.lift (getP indices N)
  nodeRemove .branch node i
  let len ← getLen node
  if len ≠ 1 then return ((), true)
  else if N ≠ 0 then
    dropNode .branch node
    return ((), false)
  else return ((), false)

/-- dense_tree.rs:241-264. -/
def removeCell (D : Nat) (root : Ptr) (indices : List Nat) (branch : List Ptr) (terminal : Ptr) (inner : Nat) :
    Prog Unit := do
  nodeRemove .term terminal inner
  let len ← getLen terminal
  if len = 1 then
    dropNode .term terminal
    let _ ← loopRev 0 (D - 1) (climbStep root branch indices) ()
    return ()
  else return ()

/-- dense_tree.rs:267-276. -/
def removeKey {α : Type} (D : Nat) (t : Tree α) (index dataIndex : Nat) : Prog (Tree α) := do
  let lastKey ← Prog.lift (unwrapU t.keys.getLast?)
  let keys := t.keys.dropLast
  if lastKey ≠ index then
    let keys ← Prog.lift (setU keys dataIndex lastKey)
    let indices ← Prog.lift (levelIndices 1 D lastKey)
    let r ← getTerminalNode D t.root indices
    setChild .term r.1 r.2 (.idx (dataIndex % 2 ^ 32))
    return { t with keys := keys }
  else return { t with keys := keys }

/-- dense_tree.rs:228-285 `remove`. -/
def remove {α : Type} (D : Nat) (t : Tree α) (index : Nat) : Prog (Tree α × Option α) := do
  let index ← Prog.lift (indexFrom 1 D index)
  let indices ← Prog.lift (levelIndices 1 D index)
  let branch ← branchLoop indices (List.range (D - 1)) t.root
  let terminal ← Prog.lift (unwrapU branch.getLast?)
  let inner ← Prog.lift (unwrapU indices.getLast?)
  let dataIndex ← getChildIdx terminal inner
  let key ← Prog.lift (getU t.keys dataIndex)
  if key = index then
    removeCell D t.root indices branch terminal inner
    let t ← removeKey D t index dataIndex
    let r ← Prog.lift (swapRemove t.data dataIndex)
    return ({ t with data := r.2 }, some r.1)
  else return (t, none)

/-- node.rs:359-373 `drop_node_with_childs`. -/
def dropNodeWithChilds : (levelsLeft : Nat) → Ptr → Prog Unit
  | 0, _ => .err .panic
  | 1, p => dropNode .term p
  | r + 2, p => do
    let m ← getMask p
    each (fun i => do
      let q ← getChildPtr p i
      dropNodeWithChilds (r + 1) q) (Mask.ones [m])
    dropNode .branch p

/-- dense_tree.rs:312-323 `drop_impl`: the values dropped. -/
def dropTree {α : Type} (D : Nat) (t : Tree α) : Prog (List α) := do
  if 1 ≤ t.data.length then
    let vs ← Prog.lift (dropSlice (t.data.drop 1))
    dropNodeWithChilds D t.root
    return vs
  else .err .panic

/-- dense_tree.rs:365-378 `HibitTree::data`, after hibit_tree.rs:190-199 `get`. -/
def get {α : Type} (D : Nat) (t : Tree α) (index : Nat) : Prog (Option α) := do
  let index ← Prog.lift (indexFrom 1 D index)
  let indices ← Prog.lift (levelIndices 1 D index)
  let r ← getTerminalNode D t.root indices
  let dataIndex ← getChildIdx r.1 r.2
  let key ← Prog.lift (getU t.keys dataIndex)
  if key = index then
    let v ← Prog.lift (getU t.data dataIndex)
    let v ← Prog.lift (unwrapU v)
    return some v
  else return none

/-- Use of the reference returned by `get_or_insert` (as `Bytes.writeRef`). -/
def writeRef {α : Type} (t : Tree α) (i : Nat) (g : α → α) : Prog (Tree α × α) := do
  let old ← Prog.lift (getU t.data i)
  let old ← Prog.lift (unwrapU old)
  let data ← Prog.lift (setU t.data i (some (g old)))
  return ({ t with data := data }, old)

/-- Use of `key_values_mut()` (dense_tree.rs:300-309; as `Bytes.mutValues`). -/
def mutValues {α : Type} (t : Tree α) (g : Nat → α → α) : Prog (Tree α) := do
  if 1 ≤ t.keys.length ∧ 1 ≤ t.data.length then
    return ⟨t.root, t.data.take 1 ++ List.zipWith (fun k v => v.map (g k)) (t.keys.drop 1) (t.data.drop 1), t.keys⟩
  else .err .ub

/-- An operation of a history (as `Bytes.step`). -/
def opProg {α : Type} (D : Nat) (t : Tree α) : Op α → Prog (Tree α × Option α × List α)
  | .insert k v => do
    let out ← insert D t k v
    return (out.tree, none, out.dropped)
  | .getOrInsert k dflt g => do
    let out ← getOrInsert D t k dflt
    let r ← writeRef out.tree out.dataIndex g
    return (r.1, some r.2, out.dropped)
  | .remove k => do
    let r ← remove D t k
    return (r.1, r.2, [])
  | .get k => do
    let v ← get D t k
    return (t, v, [])
  | .mutValues g => do
    let t ← mutValues t g
    return (t, none, [])

end Hibit.Threads
