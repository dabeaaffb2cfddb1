import Verif.Dense.History
import Verif.Sparse.History
import Verif.Iter
import Verif.Ops.Model
/-!
# The builds of the crate

The source is compiled in different ways: with or without the checks of a debug build (arithmetic overflow, shift
amounts, `debug_assert!`; `assert!`, slice bounds and `unreachable!()` stay), and with or without the
`bmi2` target feature (node.rs:87-95). The other modules of the model are the build with checks and without `bmi2`. Here the
same code is given for every build. Definitions whose code contains neither a checked operation nor `get_dense_index`
are shared.
-/
namespace Hibit

/-- A build: `checks` = debug assertions and overflow checks; `bmi2` = `cfg!(target_feature = "bmi2")`. -/
structure Build where
  checks : Bool
  bmi2 : Bool

namespace Build
variable (B : Build)

/-- `p << n` on `u64`: the amount is checked, or masked to 6 bits. -/
def shl (p : Word) (n : Nat) : R Word :=
  if n < 64 then .ok (p <<< n) else if B.checks then .error .panic else .ok (p <<< (n % 64))

/-- `p >> n` on `u64`. -/
def shr (p : Word) (n : Nat) : R Word :=
  if n < 64 then .ok (p >>> n) else if B.checks then .error .panic else .ok (p >>> (n % 64))

/-- The amount of a `usize` shift. -/
def shAmt (e : Nat) : R Nat :=
  if e < 64 then .ok e else if B.checks then .error .panic else .ok (e % 64)

/-- `a + b` in an unsigned type with `m` values: checked, or wrapping. -/
def add (m a b : Nat) : R Nat :=
  if a + b < m then .ok (a + b) else if B.checks then .error .panic else .ok ((a + b) % m)

/-- `a - b`. -/
def sub (m a b : Nat) : R Nat :=
  if b ≤ a then .ok (a - b) else if B.checks then .error .panic else .ok ((a + m - b) % m)

/-- `a * b`. -/
def mul (m a b : Nat) : R Nat :=
  if a * b < m then .ok (a * b) else if B.checks then .error .panic else .ok (a * b % m)

/-- `debug_assert!(p)`. -/
def debugAssert (p : Bool) : R Unit := if p then .ok () else if B.checks then .error .panic else .ok ()

/-! ## Indices (lib.rs, hibit_tree.rs) -/

/-- lib.rs:231-242, as `Hibit.levelIndicesLoop`. -/
def levelIndicesLoop (lw : Nat) : (n : Nat) → (remainder : Nat) → R (List Nat)
  | 0, rem => .ok [rem]
  | n + 1, rem => do
    let exp ← B.shAmt (lw * (n + 1))
    let cap := 1 <<< exp
    let levelIndex := rem >>> exp
    let rem' := rem &&& (cap - 1)
    let rest ← levelIndicesLoop lw n rem'
    return levelIndex :: rest

/-- lib.rs:220-247 `level_indices`. -/
def levelIndices (N D : Nat) (index : Nat) : R (List Nat) :=
  match D with
  | 0 => .error .panic
  | d + 1 => B.levelIndicesLoop (ilog2w N) d index

/-- lib.rs:206-216 `data_block_index`. -/
def dataBlockIndexLoop (lw D : Nat) (li : List Nat) : (todo : Nat) → (n : Nat) → (acc : Nat) → R Nat
  | 0, _, acc => .ok acc
  | todo + 1, n, acc => do
    let v ← getP li n
    let exp ← B.shAmt (lw * (D - n - 1))
    let acc' ← B.add usizeMod acc ((v <<< exp) % usizeMod)
    dataBlockIndexLoop lw D li todo (n + 1) acc'

/-- lib.rs:206-216 `data_block_index`. -/
def dataBlockIndex (N D : Nat) (li : List Nat) (dataIndex : Nat) : R Nat :=
  B.dataBlockIndexLoop (ilog2w N) D li (D - 1) 0 dataIndex

/-! ## Bits (bit_utils.rs, bit_block.rs) -/

/-- bit_utils.rs:33-48 `set_bit_unchecked`. -/
def setBitUnchecked (flag : Bool) (block : Word) (bitIndex : Nat) : R (Bool × Word) := do
  let blockMask ← B.shl 1 bitIndex
  let masked := block &&& blockMask
  let block' := if flag then block ||| blockMask else block &&& ~~~ blockMask
  return (!(masked == 0), block')

/-- bit_utils.rs:12-25 `set_array_bit_unchecked`. -/
def setArrayBitUnchecked (flag : Bool) (blocks : List Word) (index : Nat) :
    R (Bool × List Word) := do
  let blockIndex := index / 64
  let bitIndex := index &&& (64 - 1)
  let b ← getU blocks blockIndex
  let (prev, b') ← B.setBitUnchecked flag b bitIndex
  let blocks' ← setU blocks blockIndex b'
  return (prev, blocks')

/-- bit_utils.rs:75-81 `get_bit_unchecked`. -/
def getBitUnchecked (block : Word) (bitIndex : Nat) : R Bool := do
  let s ← B.shr block bitIndex
  let out := s &&& 1
  return !(out == 0)

/-- bit_utils.rs:55-68 `get_array_bit_unchecked`. -/
def getArrayBitUnchecked (blocks : List Word) (index : Nat) : R Bool := do
  let blockIndex := index / 64
  let bitIndex := index &&& (64 - 1)
  let b ← getU blocks blockIndex
  B.getBitUnchecked b bitIndex

/-- bit_block.rs:29-40 `BitBlock::set_bit`. -/
def setBit (flag : Bool) (m : Mask) (bitIndex : Nat) : R (Bool × Mask) := do
  if m.length = 1 then
    let w ← getU m 0
    let (prev, w') ← B.setBitUnchecked flag w bitIndex
    let m' ← setU m 0 w'
    return (prev, m')
  else
    B.setArrayBitUnchecked flag m bitIndex

/-- bit_block.rs:44-55 `BitBlock::get_bit`. -/
def getBit (m : Mask) (bitIndex : Nat) : R Bool := do
  if m.length = 1 then
    let w ← getU m 0
    B.getBitUnchecked w bitIndex
  else
    B.getArrayBitUnchecked m bitIndex

/-! ## The tree interface (hibit_tree.rs, iter.rs) -/

/-- hibit_tree.rs:190-196 `HibitTree::get`. -/
def get {S Cur δ : Type} (I : Impl S Cur δ) (s : S) (index : Nat) : R (Option δ) := do
  let index ← indexFrom I.N I.D index
  let indices ← B.levelIndices I.N I.D index
  I.data s index indices

/-- hibit_tree.rs:202-207 `HibitTree::get_unchecked`. -/
def getUnchecked {S Cur δ : Type} (I : Impl S Cur δ) (s : S) (index : Nat) : R δ := do
  let indices ← B.levelIndices I.N I.D index
  I.dataU s index indices

/-- iter.rs:85-147 `LendingIterator::next`; the search loop has no checked operation. -/
def iterNext {S Cur δ : Type} (I : Impl S Cur δ) (s : S) (fuel : Nat) (st : IterSt Cur) :
    R (Option (Nat × δ) × IterSt Cur) := do
  let (o, st) ← I.iterLoop s fuel st
  match o with
  | none => return (none, st)
  | some levelIndex =>
    let d ← I.curDataU st.cur s levelIndex
    let idx ← B.dataBlockIndex I.N I.D st.lidx levelIndex
    return (some (idx, d), st)

/-- The results of `n` successive calls of `next`. -/
def iterTake {S Cur δ : Type} (I : Impl S Cur δ) (s : S) (fuel : Nat) :
    Nat → IterSt Cur → R (List (Option (Nat × δ)))
  | 0, _ => .ok []
  | n + 1, st => do
    let (o, st) ← B.iterNext I s fuel st
    let rest ← iterTake I s fuel n st
    return o :: rest

/-- `tree.iter()` followed by `n` calls of `next()`. -/
def iterRun {S Cur δ : Type} (I : Impl S Cur δ) (s : S) (fuel n : Nat) :
    R (List (Option (Nat × δ))) := do
  let st ← I.iterNew s
  B.iterTake I s fuel n st

/-- _multi_intersection.rs:32-152, 338-451; `Cursor::data` reads a mask bit. -/
def multiInterImpl {S C δ : Type} (I : Impl S C δ) : Impl (List S) (MICursor C) (List δ) :=
  { Hibit.multiInterImpl I with
    curData := fun c ss i => do
      let b ← B.getBit c.terminalMask i
      if !b then return none
      else
        let ds ← miCursorData I i c.cursors ss
        return some ds }

end Build

/-! ## DenseTree (dense_tree.rs, dense_tree/node.rs) -/
namespace Build.Dense
open Hibit.Dense
variable (B : Build)

/-- node.rs:87-95 `get_dense_index`. -/
def denseIndex (mask : Word) (index : Nat) : R Nat := do
  if B.bmi2 then denseIndexBmi2 mask index
  else
    let m ← B.shl (BitVec.allOnes 64) index
    return popcount (mask &&& ~~~ m)

/-- node.rs:149-152 `get_child`. -/
def getChild (h : Heap) (p : Ptr) (index : Nat) : R Cell := do
  let n ← deref h p
  let d ← denseIndex B n.mask index
  getU n.cells d

/-- node.rs:193-208 `NodePtr::new`; the write of the sentinel needs room. -/
def nodeNew (h : Heap) (k : Kind) (cap : Nat) (emptyChild : Cell) : R (Heap × Nat) := do
  B.debugAssert (decide (cap ≥ 1))
  if cap ≥ 1 then
    .ok (h.alloc ⟨k, 0, cap, 1, emptyChild :: List.replicate (cap - 1) .uninit⟩)
  else .error .ub

/-- node.rs:304-317: grow a full node; `capacity * 2` is `u8` arithmetic. `realloc` to fewer cells loses the
excess. -/
def nodeGrow (h : Heap) (k : Kind) (a : Nat) (n : Node) : R (Heap × Nat × Node) := do
  if n.len = n.cap then
    let newCap ← B.mul 256 n.cap 2
    let h ← h.dealloc a k n.cap
    let n' := { n with cap := newCap,
                       cells := (n.cells ++ List.replicate (newCap - n.cells.length) Cell.uninit).take newCap }
    let (h, a') := h.alloc n'
    return (h, a', n')
  else return (h, a, n)

/-- node.rs:298-335 `insert`. -/
def nodeInsert (h : Heap) (k : Kind) (p : Ptr) (index : Nat) (value : Cell) :
    R (Heap × Nat × Nat) := do
  let (a, n) ← derefMut h p
  if n.kind ≠ k then .error .ub
  else
    let (h, a, n) ← nodeGrow B h k a n
    let (_, mask) ← B.setBitUnchecked true n.mask index
    let d ← denseIndex B mask index
    let cnt ← B.sub usizeMod n.len d
    let cells ← copyCells n.cells d (d + 1) cnt
    let cells ← setU cells d value
    let len ← B.add 256 n.len 1
    return (h.put a { n with mask := mask, len := len, cells := cells }, d, a)

/-- node.rs:338-348 `remove`. -/
def nodeRemove (h : Heap) (k : Kind) (p : Ptr) (index : Nat) : R Heap := do
  let (a, n) ← derefMut h p
  if n.kind ≠ k then .error .ub
  else
    let d ← denseIndex B n.mask index
    let (_, mask) ← B.setBitUnchecked false n.mask index
    let cnt ← B.sub usizeMod n.len d
    let cnt ← B.sub usizeMod cnt 1
    let cells ← copyCells n.cells (d + 1) d cnt
    let len ← B.sub 256 n.len 1
    return h.put a { n with mask := mask, len := len, cells := cells }

/-- `*node.get_child_mut::<T>(index) = value` (node.rs:155-158). -/
def setChild (h : Heap) (k : Kind) (p : Ptr) (index : Nat) (value : Cell) : R Heap := do
  let (a, n) ← derefMut h p
  if n.kind ≠ k then .error .ub
  else
    let d ← denseIndex B n.mask index
    let cells ← setU n.cells d value
    return h.put a { n with cells := cells }

/-- dense_tree.rs:92-112 `default()`. -/
def default (α : Type) (D : Nat) : R (DT α) := do
  let h : Heap := ⟨fun _ => none, 0⟩
  let (h, a) ←
    if D = 1 then nodeNew B h .term defaultCap (.idx 0)
    else do
      let e ← emptyNode 1 D
      nodeNew B h .branch defaultCap (.ptr e)
  return ⟨h, .heap a, [none], [usizeMod - 1]⟩

/-- dense_tree.rs:130-152: one level of the descent. -/
def insertStep (D : Nat) (indices : List Nat) (w : Walk) (N : Nat) : R (Walk × Bool) := do
  let innerIndex ← getP indices N
  let nodePtr ← w.read
  let n ← deref w.heap nodePtr
  let c ← B.getBitUnchecked n.mask innerIndex
  if c then
    let (a, n) ← derefMut w.heap nodePtr
    let d ← denseIndex B n.mask innerIndex
    return ({ w with slot := .cell a d }, false)
  else
    let (h, child) ←
      if N = D - 2 then nodeNew B w.heap .term defaultCap (.idx 0)
      else do
        let e ← emptyNode (N + 2) D
        nodeNew B w.heap .branch defaultCap (.ptr e)
    let (h, d, a) ← nodeInsert B h .branch nodePtr innerIndex (.ptr (.heap child))
    let w ← { w with heap := h }.write (.heap a)
    return ({ w with slot := .cell a d }, false)

/-- dense_tree.rs:125-153. -/
def insertWalk {α : Type} (D : Nat) (t : DT α) (indices : List Nat) : R Walk := do
  let (w, _) ← constLoop 0 (D - 1) (insertStep B D indices) ⟨t.heap, t.root, .root⟩
  return w

/-- dense_tree.rs:119-176 `get_or_insert_impl`. -/
def getOrInsertImpl {α : Type} (D : Nat) (t : DT α) (index : Nat) (ins : Bool) (value : α) :
    R (InsOut α) := do
  let indices ← B.levelIndices 1 D index
  let w ← insertWalk B D t indices
  let nodePtr ← w.read
  let innerIndex ← unwrapU indices.getLast?
  let n ← deref w.heap nodePtr
  let c ← B.getBitUnchecked n.mask innerIndex
  if c then
    let cell ← getChild B w.heap nodePtr innerIndex
    let i ← cell.asIdx
    let t := { t with heap := w.heap, root := w.root }
    if ins then
      let old ← getU t.data i
      let old ← unwrapU old
      let data ← setU t.data i (some value)
      return ⟨{ t with data := data }, i, [old], true⟩
    else
      let old ← getU t.data i
      let _ ← unwrapU old
      return ⟨t, i, [], false⟩
  else
    let i := t.data.length
    let (h, _, a) ← nodeInsert B w.heap .term nodePtr innerIndex (.idx (i % 2 ^ 32))
    let w ← { w with heap := h }.write (.heap a)
    return ⟨⟨w.heap, w.root, t.data ++ [some value], t.keys ++ [index]⟩, i, [], true⟩

/-- dense_tree.rs:186-189 `insert`. -/
def insert {α : Type} (D : Nat) (t : DT α) (index : Nat) (value : α) : R (InsOut α) := do
  let index ← indexFrom 1 D index
  getOrInsertImpl B D t index true value

/-- dense_tree.rs:178-184 `get_or_insert`. -/
def getOrInsert {α : Type} (D : Nat) (t : DT α) (index : Nat) (dflt : α) : R (InsOut α) := do
  let index ← indexFrom 1 D index
  getOrInsertImpl B D t index false dflt

/-- The loop of dense_tree.rs:202-207. -/
def branchLoop (h : Heap) (indices : List Nat) : List Nat → Ptr → R (List Ptr)
  | [], _ => .ok []
  | n :: ns, p => do
    let innerIndex ← getP indices n
    let c ← getChild B h p innerIndex
    let q ← c.asPtr
    let rest ← branchLoop h indices ns q
    return q :: rest

/-- dense_tree.rs:196-212 `get_branch`. -/
def getBranch {α : Type} (D : Nat) (t : DT α) (indices : List Nat) : R (List Ptr) :=
  branchLoop B t.heap indices (List.range (D - 1)) t.root

/-- The loop of dense_tree.rs:218-222. -/
def terminalLoop (h : Heap) (indices : List Nat) : List Nat → Ptr → R Ptr
  | [], p => .ok p
  | n :: ns, p => do
    let innerIndex ← getU indices n
    let c ← getChild B h p innerIndex
    let q ← c.asPtr
    terminalLoop h indices ns q

/-- dense_tree.rs:216-225 `get_terminal_node`. -/
def getTerminalNode (D : Nat) (h : Heap) (root : Ptr) (indices : List Nat) : R (Ptr × Nat) := do
  let p ← terminalLoop B h indices (List.range (D - 1)) root
  let i ← unwrapU indices.getLast?
  return (p, i)

/-- dense_tree.rs:249-262: one step of the climb. -/
def climbStep (root : Ptr) (branch : List Ptr) (indices : List Nat) (h : Heap) (N : Nat) :
    R (Heap × Bool) := do
  let node ← if N = 0 then Except.ok root else getP branch (N - 1)
  let i ← getP indices N
  let h ← nodeRemove B h .branch node i
  let n ← deref h node
  if n.len ≠ 1 then return (h, true)
  else if N ≠ 0 then
    let h ← dropNode h .branch node
    return (h, false)
  else return (h, false)

/-- dense_tree.rs:267-276. -/
def removeKey {α : Type} (D : Nat) (t : DT α) (index dataIndex : Nat) : R (DT α) := do
  let lastKey ← unwrapU t.keys.getLast?
  let keys := t.keys.dropLast
  if lastKey ≠ index then
    let keys ← setU keys dataIndex lastKey
    let indices ← B.levelIndices 1 D lastKey
    let (node, inner) ← getTerminalNode B D t.heap t.root indices
    let h ← setChild B t.heap .term node inner (.idx (dataIndex % 2 ^ 32))
    return { t with keys := keys, heap := h }
  else return { t with keys := keys }

/-- dense_tree.rs:241-264. -/
def removeCell {α : Type} (D : Nat) (t : DT α) (indices : List Nat) (branch : List Ptr)
    (terminal : Ptr) (inner : Nat) : R Heap := do
  let h ← nodeRemove B t.heap .term terminal inner
  let n ← deref h terminal
  if n.len = 1 then
    let h ← dropNode h .term terminal
    let (h, _) ← constLoopRev 0 (D - 1) (climbStep B t.root branch indices) h
    return h
  else return h

/-- dense_tree.rs:228-285 `remove`. -/
def remove {α : Type} (D : Nat) (t : DT α) (index : Nat) : R (DT α × Option α) := do
  let index ← indexFrom 1 D index
  let indices ← B.levelIndices 1 D index
  let branch ← getBranch B D t indices
  let terminal ← unwrapU branch.getLast?
  let inner ← unwrapU indices.getLast?
  let cell ← getChild B t.heap terminal inner
  let dataIndex ← cell.asIdx
  let key ← Hibit.getU t.keys dataIndex
  if key = index then
    let h ← removeCell B D t indices branch terminal inner
    let t ← removeKey B D { t with heap := h } index dataIndex
    let (v, data) ← swapRemove t.data dataIndex
    return ({ t with data := data }, some v)
  else return (t, none)

/-- node.rs:359-373 `drop_node_with_childs`. -/
def dropNodeWithChilds : (levelsLeft : Nat) → Heap → Ptr → R Heap
  | 0, _, _ => .error .panic
  | 1, h, p => dropNode h .term p
  | r + 2, h, p => do
    let n ← deref h p
    let h ← (Mask.ones [n.mask]).foldlM (fun h i => do
      let c ← getChild B h p i
      let q ← c.asPtr
      dropNodeWithChilds (r + 1) h q) h
    dropNode h .branch p

/-- dense_tree.rs:312-323 `drop_impl`; `len - 1` (321). -/
def dropImpl {α : Type} (D : Nat) (t : DT α) : R (List α × Heap) := do
  let cnt ← B.sub usizeMod t.data.length 1
  if 1 + cnt ≤ t.data.length then
    let vs ← dropSlice ((t.data.drop 1).take cnt)
    let h ← dropNodeWithChilds B D t.heap t.root
    return (vs, h)
  else .error .ub

/-- dense_tree.rs:365-378 `HibitTree::data`. -/
def treeData {α : Type} (D : Nat) (t : DT α) (index : Nat) (indices : List Nat) :
    R (Option α) := do
  let (node, inner) ← getTerminalNode B D t.heap t.root indices
  let cell ← getChild B t.heap node inner
  let dataIndex ← cell.asIdx
  let key ← Hibit.getU t.keys dataIndex
  if key = index then
    let v ← Hibit.getU t.data dataIndex
    let v ← unwrapU v
    return some v
  else return none

/-- dense_tree.rs:424-452 `select_level_node`. -/
def curSelect {α : Type} (D : Nat) (c : Cursor) (t : DT α) (n i : Nat) : R (Mask × Cursor) := do
  if n = 0 then
    let r ← deref t.heap t.root
    return ([r.mask], c)
  else
    let prev ← prevNode c t n
    let pn ← deref t.heap prev
    let contains ← B.getBitUnchecked pn.mask i
    let cell ← getChild B t.heap prev i
    let node ← cell.asPtr
    let node ← if contains then Except.ok node else emptyNode n D
    let c ← setU c (n - 1) (some node)
    let nn ← deref t.heap node
    return ([nn.mask], c)

/-- dense_tree.rs:455-480 `select_level_node_unchecked`. -/
def curSelectU {α : Type} (c : Cursor) (t : DT α) (n i : Nat) : R (Mask × Cursor) := do
  if n = 0 then
    let r ← deref t.heap t.root
    return ([r.mask], c)
  else
    let prev ← prevNode c t n
    let cell ← getChild B t.heap prev i
    let node ← cell.asPtr
    let c ← setU c (n - 1) (some node)
    let nn ← deref t.heap node
    return ([nn.mask], c)

/-- dense_tree.rs:485-505 `Cursor::data`. -/
def curData {α : Type} (D : Nat) (c : Cursor) (t : DT α) (i : Nat) : R (Option α) := do
  let node ← curTerminal D c t
  let n ← deref t.heap node
  let contains ← B.getBitUnchecked n.mask i
  if contains then
    let cell ← getChild B t.heap node i
    let dataIndex ← cell.asIdx
    let v ← Hibit.getU t.data dataIndex
    let v ← unwrapU v
    return some v
  else return none

/-- dense_tree.rs:508-520 `Cursor::data_unchecked`. -/
def curDataU {α : Type} (D : Nat) (c : Cursor) (t : DT α) (i : Nat) : R α := do
  let node ← curTerminal D c t
  let cell ← getChild B t.heap node i
  let dataIndex ← cell.asIdx
  let v ← Hibit.getU t.data dataIndex
  unwrapU v

/-- dense_tree.rs:354-386 (tree) and 409-521 (cursor). -/
def impl (α : Type) (D : Nat) : Impl (DT α) Cursor α where
  N := 1
  D := D
  exact := true
  data := treeData B D
  dataU := fun t index li => do let d ← treeData B D t index li; unwrapU d
  new := fun _ => .ok (List.replicate (D - 1) none)
  select := curSelect B D
  selectU := curSelectU B
  curData := curData B D
  curDataU := curDataU B D

/-- One public operation, as `Hibit.Dense.step`. -/
def step {α : Type} (D : Nat) (t : DT α) : Op α → R (DT α × Option α × List α)
  | .insert k v => do
    let out ← insert B D t k v
    return (out.tree, none, out.dropped)
  | .getOrInsert k dflt g => do
    let out ← getOrInsert B D t k dflt
    let (t, v) ← writeRef out.tree out.dataIndex g
    return (t, some v, out.dropped)
  | .remove k => do
    let (t, v) ← remove B D t k
    return (t, v, [])
  | .get k => do
    let v ← B.get (impl B α D) t k
    return (t, v, [])
  | .mutValues g => do
    let t ← mutValues t g
    return (t, none, [])

/-- A history, from left to right. -/
def run {α : Type} (D : Nat) (t : DT α) : List (Op α) → R (DT α × List (Option α × List α))
  | [] => .ok (t, [])
  | op :: ops => do
    let (t, o) ← step B D t op
    let (t, os) ← run D t ops
    return (t, o :: os)

end Build.Dense
/-! ## SparseTree (sparse_tree.rs, level_block/block.rs) -/
namespace Build.Sparse
open Hibit.Sparse
variable (B : Build)

/-- block.rs:99-106 `insert`. -/
def blockInsert (b : Block) (n i item : Nat) : R Block := do
  let (_, mask) ← B.setBit true b.mask i
  let idx ← setU b.idx i (fromUsize n item)
  return ⟨mask, idx⟩

/-- block.rs:109-112 `remove_unchecked`. -/
def blockRemove (b : Block) (i : Nat) : R Block := do
  let (_, mask) ← B.setBit false b.mask i
  let idx ← setU b.idx i 0
  return ⟨mask, idx⟩

/-- sparse_tree.rs:238-267 `fetch_block_indices`: `debug_assert_eq!` of the number of indices. -/
def fetchBlockIndices {α : Type} (D : Nat) (t : ST α) (li : List Nat) : R (List Nat × Nat) := do
  B.debugAssert (decide (li.length = D))
  fetchFrom li 0 0 t.levels

/-- sparse_tree.rs:269-272 `fetch_block_index`. -/
def fetchBlockIndex {α : Type} (D : Nat) (t : ST α) (li : List Nat) : R Nat := do
  let (_, r) ← fetchBlockIndices B D t li
  return r

/-- sparse_tree.rs:290-325. -/
def removeLoop (li lbi : List Nat) : (n : Nat) → List Level → R (List Level)
  | 0, lv => .ok lv
  | n + 1, lv => do
    let L ← getP lv n
    let bi ← if n = 0 then pure 0 else getP lbi (n - 1)
    let b ← getU L.blocks bi
    let inner ← getP li n
    let b ← blockRemove B b inner
    let blocks ← setU L.blocks bi b
    let L := { L with blocks := blocks }
    if b.isEmpty then
      let L ← if n ≠ 0 then L.removeEmpty bi else pure L
      removeLoop li lbi n (lv.set n L)
    else return lv.set n L

/-- sparse_tree.rs:275-366 `remove`. -/
def remove {α : Type} (N D : Nat) (t : ST α) (index : Nat) : R (ST α × Option α) := do
  let index ← indexFrom N D index
  let li ← B.levelIndices N D index
  let (lbi, di) ← fetchBlockIndices B D t li
  if di = 0 then return (t, none)
  else
    let levels ← removeLoop B li lbi D t.levels
    let t ← moveLast D { t with levels := levels } di
    let (_, keys) ← swapRemove t.keys di
    let (v, values) ← swapRemove t.values di
    let v ← unwrapU v
    return ({ t with keys := keys, values := values }, some v)

/-- sparse_tree.rs:402-437. -/
def insertStep (N : Nat) (li : List Nat) (st : List Level × Nat) (n : Nat) :
    R ((List Level × Nat) × Bool) := do
  let inner ← getP li n
  let L ← getP st.1 n
  let b ← getU L.blocks st.2
  let next ← b.getOrZero inner
  if next = 0 then
    let L1 ← getP st.1 (n + 1)
    let (new, L1) ← L1.insertEmpty N
    let lv := st.1.set (n + 1) L1
    let L ← getP lv n
    let b ← getU L.blocks st.2
    let b ← blockInsert B b n inner new
    let blocks ← setU L.blocks st.2 b
    return ((lv.set n { L with blocks := blocks }, new), false)
  else return ((st.1, next), false)

/-- sparse_tree.rs:395-463 `get_or_insert_impl`. -/
def getOrInsertImpl {α : Type} (N D : Nat) (t : ST α) (index : Nat) (ins : Bool) (value : α) :
    R (InsOut α) := do
  let li ← B.levelIndices N D index
  let inner ← unwrapU li.getLast?
  let ((lv, bi), _) ← constLoop 0 (D - 1) (insertStep B N li) (t.levels, 0)
  let L ← getP lv (D - 1)
  let b ← getU L.blocks bi
  let di ← b.getOrZero inner
  if di = 0 then
    let i := t.values.length
    let b ← blockInsert B b (D - 1) inner i
    let blocks ← setU L.blocks bi b
    return ⟨⟨lv.set (D - 1) { L with blocks := blocks }, t.values ++ [some value],
      t.keys ++ [index], t.last ++ [(bi, inner)]⟩, i, [], true⟩
  else
    let t := { t with levels := lv }
    let old ← getU t.values di
    let old ← unwrapU old
    if ins then
      let values ← setU t.values di (some value)
      return ⟨{ t with values := values }, di, [old], true⟩
    else return ⟨t, di, [], false⟩

/-- sparse_tree.rs:388-391 `insert`. -/
def insert {α : Type} (N D : Nat) (t : ST α) (index : Nat) (value : α) : R (InsOut α) := do
  let index ← indexFrom N D index
  getOrInsertImpl B N D t index true value

/-- sparse_tree.rs:370-376 `get_or_insert`. -/
def getOrInsert {α : Type} (N D : Nat) (t : ST α) (index : Nat) (dflt : α) : R (InsOut α) := do
  let index ← indexFrom N D index
  getOrInsertImpl B N D t index false dflt

/-- sparse_tree.rs:468-481 `get_mut`. -/
def getMut {α : Type} (N D : Nat) (t : ST α) (index : Nat) : R (Option Nat) := do
  let index ← indexFrom N D index
  let li ← B.levelIndices N D index
  let di ← fetchBlockIndex B D t li
  if di ≠ 0 then
    let v ← getU t.values di
    let _ ← unwrapU v
    return some di
  else return none

/-- sparse_tree.rs:522-532 `drop_impl`: `len - skip_first as usize`. -/
def dropImpl {α : Type} (required : Bool) (t : ST α) : R (List α) := do
  let skip := if required then 0 else 1
  let cnt ← B.sub usizeMod t.values.length skip
  if skip + cnt ≤ t.values.length then dropSlice ((t.values.drop skip).take cnt) else .error .ub

/-- sparse_tree.rs:544-552 `get_or_default`. -/
def getOrDefault {α : Type} (N D : Nat) (t : ST α) (index : Nat) : R α := do
  let index ← indexFrom N D index
  let li ← B.levelIndices N D index
  let di ← fetchBlockIndex B D t li
  let v ← getU t.values di
  unwrapU v

/-- sparse_tree.rs:615-622 `HibitTree::data`. -/
def treeData {α : Type} (D : Nat) (t : ST α) (li : List Nat) : R (Option α) := do
  let di ← fetchBlockIndex B D t li
  if di = 0 then return none
  else
    let v ← getU t.values di
    let v ← unwrapU v
    return some v

/-- sparse_tree.rs:596-631 (tree) and 658-741 (cursor); the cursor has no checked operation. -/
def impl (α : Type) (N D : Nat) : Impl (ST α) Cursor α where
  N := N
  D := D
  exact := true
  data := fun t _ li => treeData B D t li
  dataU := fun t _ li => do let d ← treeData B D t li; unwrapU d
  new := fun _ => .ok (List.replicate (D - 1) none)
  select := curSelect
  selectU := curSelect
  curData := curData D
  curDataU := fun c t i => do let d ← curData D c t i; unwrapU d

/-- One public operation, as `Hibit.Sparse.step`. -/
def step {α : Type} (N D : Nat) (t : ST α) : Op α → R (ST α × Option α × List α)
  | .insert k v => do
    let out ← insert B N D t k v
    return (out.tree, none, out.dropped)
  | .getOrInsert k d g => do
    let out ← getOrInsert B N D t k d
    let (t, v) ← writeRef out.tree out.dataIndex g
    return (t, some v, out.dropped)
  | .remove k => do
    let (t, v) ← remove B N D t k
    return (t, v, [])
  | .get k => do
    let v ← B.get (impl B α N D) t k
    return (t, v, [])
  | .getMut k g => do
    let o ← getMut B N D t k
    match o with
    | none => return (t, none, [])
    | some i =>
      let (t, v) ← writeRef t i g
      return (t, some v, [])
  | .getOrDefault k => do
    let v ← getOrDefault B N D t k
    return (t, some v, [])
  | .mutValues g => do
    let t ← mutValues t g
    return (t, none, [])

/-- A history, from left to right. -/
def run {α : Type} (N D : Nat) (t : ST α) : List (Op α) → R (ST α × List (Option α × List α))
  | [] => .ok (t, [])
  | op :: ops => do
    let (t, o) ← step B N D t op
    let (t, os) ← run N D t ops
    return (t, o :: os)

end Build.Sparse
end Hibit
