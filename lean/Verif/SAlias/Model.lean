import Verif.Alias.Model
import Verif.Typed.Model
/-!
# SparseTree under Rust's aliasing rules (Stacked Borrows)

The functions of `src/sparse_tree.rs` (with `sparse_tree_levels.rs` and `level/*.rs`) as in `Typed/Model`, with every reference they
make to the tree's fields, to the elements of the level tuple and to the blocks, and every access made through these
references and through the raw block pointers (`BlockPtr`, `Cursor::level_block_ptrs`). Each place has a stack of borrows; an
access through a pointer whose borrow is no longer on the stack is undefined behaviour.

The root block lies inside the tree itself (`SingleBlockLevel`, single_block_level.rs:5-8), so a `&mut self.levels` covers it; the
blocks of the other levels lie in buffers of their own (intrusive_list_level.rs:6-13).

A raw pointer made by `as *const u8`/`as *mut u8` has the tag of the reference it is made from, which is no more than what Rust
grants it. A block, and the part of a level stored in the tuple, is one place; so are the vectors `values`, `keys` and
`last_level_block_indices`, whose elements are reached by safe calls and `get_unchecked` only (borrow-checked).

A reference passed to a function is protected while the function runs: `leave` at the end of the call. Not modelled: two-phase borrows.
-/
namespace Hibit.SAlias
open Hibit Hibit.Sparse
open Hibit.Alias (Perm Item Acc Tag)
open Hibit.Typed (GLevel BPtr GT)

/-- A place: the part of level `n` stored in the tuple (for the root level its block), a block in the buffer `g` of level `n`, a
vector field of the tree (sparse_tree.rs:47-66). -/
inductive Place where
  | head (n : Nat)
  | blk (n g pos : Nat)
  | values
  | keys
  | last
deriving DecidableEq, Repr

/-- The borrows of every place, topmost first; the bottom one (the owner of the tree, the pointer a `Vec` stores) is not listed. -/
structure St where
  stk : Place → List Item
  next : Nat

/-- An access, as `Alias.access`: the topmost borrow with this tag that permits it must be on the stack; a write removes every
borrow above it, a read every unique one above it. `none` is the bottom pointer. -/
def access (w : Acc) (t : Tag) (s : List Item) : R (List Item) :=
  match t, w with
  | none, .read => .ok (s.filter (fun i => i.perm = .shared))
  | none, .write => .ok []
  | some t, w =>
    match s.dropWhile (fun i => !i.grants w t) with
    | [] => .error .ub
    | rest =>
      if w = .write then .ok rest
      else .ok ((s.takeWhile (fun i => !i.grants w t)).filter (fun i => i.perm = .shared) ++ rest)

/-- An access to one place. -/
def touch (pl : Place) (w : Acc) (t : Tag) (z : St) : R St := do
  let s ← access w t (z.stk pl)
  return { z with stk := Dense.upd z.stk pl s }

/-- The new borrow `n` of `ps` through `t`. -/
def borrow (pm : Perm) (t : Tag) (n : Nat) : List Place → St → R St
  | [], z => .ok z
  | pl :: ps, z => do
    let s ← access pm.acc t (z.stk pl)
    borrow pm t n ps { z with stk := Dense.upd z.stk pl (⟨pm, n⟩ :: s) }

/-- `&*x`/`&mut *x` covering `ps`, where `x` has tag `t`. -/
def retag (pm : Perm) (t : Tag) (ps : List Place) (z : St) : R (Tag × St) := do
  let z' ← borrow pm t z.next ps z
  return (some z.next, { z' with next := z.next + 1 })

/-- The end of a call that got the reference `t` covering `ps` as an argument. Such a reference is protected: removing its borrow from
a stack before the call ends is undefined behaviour. A borrow that was removed never comes back (tags are new), so it is enough to
find it on all stacks at the end. -/
def leave (t : Tag) (ps : List Place) (z : St) : R Unit :=
  if ∀ pl ∈ ps, (z.stk pl).any (fun i => some i.tag == t) = true then .ok () else .error .ub

/-! ## References to parts of the tree -/

/-- What lies in the level tuple itself. -/
def heads (D : Nat) : List Place := (List.range D).map .head

/-- What lies in the tree itself (sparse_tree.rs:47-66). -/
def inline (D : Nat) : List Place := heads D ++ [.values, .keys, .last]

/-- The blocks in the buffer of a level other than the root. -/
def buffer (n : Nat) (L : GLevel) : List Place := (List.range L.level.blocks.length).map (.blk n L.gen)

/-- Where a block is. -/
def blockPlace (n g pos : Nat) : Place := if n = 0 then .head 0 else .blk n g pos

/-- `blocks().get_unchecked(pos)`, `blocks_mut().get_unchecked_mut(pos)` (single_block_level.rs:13-21,
intrusive_list_level.rs:68-76) with the level behind `t`: `blocks` borrows `self`; the slice is made from a pointer to the inline
block or from the one in the `Vec`, and covers every block; then one of them is borrowed. `self` and the slice are arguments of
these calls. -/
def blockRef (pm : Perm) (n : Nat) (L : GLevel) (pos : Nat) (t : Tag) (z : St) : R (Tag × St) := do
  let (t, z) ← retag pm t [.head n] z
  if n = 0 then
    let (s, z) ← retag pm t [.head 0] z
    let (b, z) ← retag pm s [.head 0] z
    leave s [.head 0] z
    leave t [.head 0] z
    return (b, z)
  else
    let z ← touch (.head n) .read t z
    let (s, z) ← retag pm none (buffer n L) z
    let (b, z) ← retag pm s [.blk n L.gen pos] z
    leave s (buffer n L) z
    leave t [.head n] z
    return (b, z)

/-- A method of the block behind `t` that reads it (`get_or_zero(&self)`, `mask(&self)`, `is_empty(&self)`; block.rs:29-32, 62-79). -/
def readBlock (pl : Place) (t : Tag) (z : St) : R St := do
  let (t, z) ← retag .shared t [pl] z
  let z ← touch pl .read t z
  leave t [pl] z
  return z

/-- A method of the block behind `t` that writes it (`insert(&mut self)`, `remove_unchecked`, `set_unchecked`; block.rs:99-118). -/
def writeBlock (pl : Place) (t : Tag) (z : St) : R St := do
  let (t, z) ← retag .uniq t [pl] z
  let z ← touch pl .write t z
  leave t [pl] z
  return z

/-- A raw block pointer and its tag. -/
structure TPtr where
  ptr : BPtr
  tag : Tag

/-- Where it points. -/
def TPtr.place (p : TPtr) : Place := blockPlace p.ptr.level p.ptr.gen p.ptr.pos

/-- sparse_tree.rs:191-212 `get_block(&self)` (`pm = shared`), 214-235 `get_block_mut(&mut self)` (`pm = uniq`), with the tree behind
`t`. `visit(&self)`/`visit_mut(&mut self)` (sparse_tree_levels.rs:112-129) borrow the tuple and pass `&self.$i`/`&mut self.$i` to the
visitor. -/
def getBlock (pm : Perm) (lv : List GLevel) (t : Tag) (n pos : Nat) (z : St) : R (TPtr × St) := do
  let p ← Typed.getBlock lv n pos
  let L ← getP lv n
  let (t, z) ← retag pm t (inline lv.length) z
  let (u, z) ← retag pm t (heads lv.length) z
  let (v, z) ← retag pm u [.head n] z
  let (b, z) ← blockRef pm n L pos v z
  leave v [.head n] z
  leave u (heads lv.length) z
  leave t (inline lv.length) z
  return (⟨p, b⟩, z)

/-- sparse_tree.rs:145-163 `get_child`: `(*block).get_or_zero(..)`. -/
def TPtr.getChild (lv : List GLevel) (n : Nat) (p : TPtr) (i : Nat) (z : St) : R (Nat × St) := do
  let c ← p.ptr.getChild lv n i
  let z ← readBlock p.place p.tag z
  return (c, z)

/-- sparse_tree.rs:124-143 `get_mask`: `(*block).mask()` as a `NonNull`, `as_ref()` of it, and the copy its callers make. -/
def TPtr.getMask (lv : List GLevel) (n : Nat) (p : TPtr) (z : St) : R (Mask × St) := do
  let m ← p.ptr.getMask lv n
  let (t, z) ← retag .shared p.tag [p.place] z
  let (u, z) ← retag .shared t [p.place] z
  leave t [p.place] z
  let z ← readBlock p.place u z
  return (m, z)

/-- sparse_tree.rs:165-183 `insert_child`: `(*block).insert(..)`. -/
def TPtr.insertChild (lv : List GLevel) (n : Nat) (p : TPtr) (i item : Nat) (z : St) : R (List GLevel × St) := do
  let lv ← p.ptr.insertChild lv n i item
  let z ← writeBlock p.place p.tag z
  return (lv, z)

/-! ## Reading -/

/-- sparse_tree.rs:250-262: one visit of `fetch_block_indices`, the tuple behind `t`. -/
def fetchVisit (li : List Nat) (t : Tag) (s : (List Nat × Nat) × St) (i : Nat) (L : GLevel) :
    R (((List Nat × Nat) × St) × Bool) := do
  let block ← getU L.level.blocks s.1.2
  let inBlock ← getU li i
  let bi ← block.getOrZero inBlock
  let out ← setU s.1.1 i bi
  let (t, z) ← retag .shared t [.head i] s.2
  let (b, z) ← blockRef .shared i L s.1.2 t z
  let z ← readBlock (blockPlace i L.gen s.1.2) b z
  leave t [.head i] z
  return (((out, bi), z), false)

/-- sparse_tree.rs:237-267 `fetch_block_indices(&self)`. -/
def fetchBlockIndices (lv : List GLevel) (t : Tag) (li : List Nat) (z : St) : R ((List Nat × Nat) × St) := do
  let (t, z) ← retag .shared t (inline lv.length) z
  let (u, z) ← retag .shared t (heads lv.length) z
  let (r, z) ← Typed.fold lv (fetchVisit li u) ((List.replicate lv.length 0, 0), z)
  leave u (heads lv.length) z
  leave t (inline lv.length) z
  return (r, z)

/-- sparse_tree.rs:270-272 `fetch_block_index(&self)`. -/
def fetchBlockIndex {α : Type} (g : GT α) (t : Tag) (li : List Nat) (z : St) : R (Nat × St) := do
  let (t, z) ← retag .shared t (inline g.levels.length) z
  let (r, z) ← fetchBlockIndices g.levels t li z
  leave t (inline g.levels.length) z
  return (r.2, z)

/-- `self.f.get_unchecked(..)` and the like for a vector field: the field is borrowed and accessed. -/
def field (pm : Perm) (pl : Place) (t : Tag) (z : St) : R St := do
  let (t, z) ← retag pm t [pl] z
  let z ← touch pl pm.acc t z
  leave t [pl] z
  return z

/-- sparse_tree.rs:615-622 `HibitTree::data(&self)`. -/
def treeData {α : Type} (g : GT α) (t : Tag) (li : List Nat) (z : St) : R (Option α × St) := do
  let (t, z) ← retag .shared t (inline g.levels.length) z
  let (di, z) ← fetchBlockIndex g t li z
  if di = 0 then
    leave t (inline g.levels.length) z
    return (none, z)
  else
    let v ← getU g.values di
    let v ← unwrapU v
    let z ← field .shared .values t z
    leave t (inline g.levels.length) z
    return (some v, z)

/-- hibit_tree.rs:190-198 `HibitTree::get(&self)`. -/
def get {α : Type} (N D : Nat) (g : GT α) (t : Tag) (index : Nat) (z : St) : R (Option α × St) := do
  let index ← indexFrom N D index
  let li ← levelIndices N D index
  let (t, z) ← retag .shared t (inline g.levels.length) z
  let (v, z) ← treeData g t li z
  leave t (inline g.levels.length) z
  return (v, z)

/-- sparse_tree.rs:544-552 `get_or_default(&self)`. -/
def getOrDefault {α : Type} (N D : Nat) (g : GT α) (t : Tag) (index : Nat) (z : St) : R (α × St) := do
  let index ← indexFrom N D index
  let li ← levelIndices N D index
  let (t, z) ← retag .shared t (inline g.levels.length) z
  let (di, z) ← fetchBlockIndex g t li z
  let v ← getU g.values di
  let v ← unwrapU v
  let z ← field .shared .values t z
  leave t (inline g.levels.length) z
  return (v, z)

/-- sparse_tree.rs:499-507 `key_values(&self)`. -/
def keyValues {α : Type} (g : GT α) (t : Tag) (z : St) : R ((List Nat × List (Option α)) × St) := do
  let kv ← Typed.keyValues g
  let (t, z) ← retag .shared t (inline g.levels.length) z
  let z ← field .shared .keys t z
  let z ← field .shared .values t z
  leave t (inline g.levels.length) z
  return (kv, z)

/-- sparse_tree.rs:633-647 `Cursor`: the stored pointers with their tags. -/
abbrev Cursor := List (Option TPtr)

/-- sparse_tree.rs:681-710 `select_level_node` (and 672-676). `src` is the `&'src` tree behind `t`. -/
def curSelect {α : Type} (c : Cursor) (g : GT α) (t : Tag) (n i : Nat) (z : St) : R ((Mask × Cursor) × St) := do
  let (t, z) ← retag .shared t (inline g.levels.length) z
  if n = 0 then
    if i ≠ 0 then .error .panic
    else
      let (block, z) ← getBlock .shared g.levels t n 0 z
      let (m, z) ← block.getMask g.levels n z
      leave t (inline g.levels.length) z
      return ((m, c), z)
  else
    let (prev, z) ← (if n = 1 then getBlock .shared g.levels t 0 0 z
      else do
        let o ← getU c (n - 1 - 1)
        let p ← unwrapU o
        return (p, z))
    let (bi, z) ← prev.getChild g.levels (n - 1) i z
    let (block, z) ← getBlock .shared g.levels t n bi z
    let c ← setU c (n - 1) (some block)
    let (m, z) ← block.getMask g.levels n z
    leave t (inline g.levels.length) z
    return ((m, c), z)

/-- sparse_tree.rs:720-741 `Cursor::data`. -/
def curData {α : Type} (D : Nat) (c : Cursor) (g : GT α) (t : Tag) (i : Nat) (z : St) : R (Option α × St) := do
  let (t, z) ← retag .shared t (inline g.levels.length) z
  let (block, z) ← (if D = 1 then getBlock .shared g.levels t 0 0 z
    else do
      let o ← unwrapU c.getLast?
      let p ← unwrapU o
      return (p, z))
  let (di, z) ← block.getChild g.levels (D - 1) i z
  if di = 0 then
    leave t (inline g.levels.length) z
    return (none, z)
  else
    let v ← getU g.values di
    let v ← unwrapU v
    let z ← field .shared .values t z
    leave t (inline g.levels.length) z
    return (some v, z)

/-! ## Changing -/

/-- `&mut self` of a public method. -/
def selfMut {α : Type} (g : GT α) (z : St) : R (Tag × St) := retag .uniq none (inline g.levels.length) z

/-- `Vec::push` of a block into a new buffer `g'`: the old blocks are read and freed, the new buffer has no borrows. -/
def pushBlock (n : Nat) (L L' : GLevel) (t : Tag) (z : St) : R St := do
  let (t, z) ← retag .uniq t [.head n] z
  let (_, z) ← retag .uniq none (buffer n L) z
  let z ← touch (.head n) .write t z
  leave t [.head n] z
  return { z with stk := fun pl => match pl with
    | .blk m g p => if m = n ∧ g = L'.gen then [] else z.stk (.blk m g p)
    | pl => z.stk pl }

/-- intrusive_list_level.rs:35-53 `pop_empty_block` when the list is not empty, the level behind `t`. -/
def popBlock (n : Nat) (L : GLevel) (pos : Nat) (t : Tag) (z : St) : R St := do
  let (b, z) ← blockRef .uniq n L pos t z
  let pl := blockPlace n L.gen pos
  let (u, z) ← retag .uniq b [pl] z
  let z ← touch pl .read u z
  leave u [pl] z
  let z ← touch (.head n) .write t z
  writeBlock pl b z

/-- intrusive_list_level.rs:78-87 `insert_empty_block(&mut self)`, the level behind `t`. -/
def insertEmpty (N n : Nat) (L : GLevel) (t : Tag) (z : St) : R ((Nat × St) × GLevel) := do
  let (i, L') ← L.insertEmpty N
  let (t, z) ← retag .uniq t [.head n] z
  let (u, z) ← retag .uniq t [.head n] z
  let z ← touch (.head n) .read u z
  if L'.gen = L.gen then
    let z ← popBlock n L i u z
    leave u [.head n] z
    leave t [.head n] z
    return ((i, z), L')
  else
    leave u [.head n] z
    let z ← pushBlock n L L' t z
    leave t [.head n] z
    return ((i, z), L')

/-- intrusive_list_level.rs:56-66, 90-92 `remove_empty_block_unchecked(&mut self)`, the level behind `t`. -/
def removeEmpty (n : Nat) (L : GLevel) (pos : Nat) (t : Tag) (z : St) : R St := do
  let (s, z) ← retag .uniq t [.head n] z
  let (t, z) ← retag .uniq s [.head n] z
  let (b, z) ← blockRef .uniq n L pos t z
  let pl := blockPlace n L.gen pos
  let (u, z) ← retag .uniq b [pl] z
  let z ← touch (.head n) .read t z
  let z ← touch pl .write u z
  leave u [pl] z
  let z ← touch (.head n) .write t z
  leave t [.head n] z
  leave s [.head n] z
  return z

/-- sparse_tree.rs:402-437, the tree behind `t`. -/
def insertStep (N : Nat) (li : List Nat) (t : Tag) (st : (List GLevel × Nat) × St) (n : Nat) :
    R (((List GLevel × Nat) × St) × Bool) := do
  let lv := st.1.1
  let inner ← getP li n
  let (block, z) ← getBlock .shared lv t n st.1.2 st.2
  let (next, z) ← block.getChild lv n inner z
  if next = 0 then
    let (u, z) ← retag .uniq t (heads lv.length) z
    let ((new, z), lv) ← Typed.visitMut lv (n + 1) fun _ L => do
      let (v, z) ← retag .uniq u [.head (n + 1)] z
      let ((new, z), L) ← insertEmpty N (n + 1) L v z
      leave v [.head (n + 1)] z
      return ((new, z), L)
    leave u (heads lv.length) z
    let (ptr, z) ← getBlock .uniq lv t n st.1.2 z
    let (lv, z) ← ptr.insertChild lv n inner new z
    return (((lv, new), z), false)
  else return (((lv, next), z), false)

/-- sparse_tree.rs:395-463 `get_or_insert_impl(&mut self)`, the tree behind `t`. The pointer `block` is used again after the pushes to
the vectors. -/
def getOrInsertImpl {α : Type} (N D : Nat) (g : GT α) (t : Tag) (index : Nat) (ins : Bool) (value : α) (z : St) :
    R (Typed.InsOut α × St) := do
  let (t, z) ← retag .uniq t (inline g.levels.length) z
  let li ← levelIndices N D index
  let inner ← unwrapU li.getLast?
  let (((lv, bi), z), _) ← constLoop 0 (D - 1) (insertStep N li t) ((g.levels, 0), z)
  let (block, z) ← getBlock .uniq lv t (D - 1) bi z
  let (di, z) ← block.getChild lv (D - 1) inner z
  if di = 0 then
    let i := g.values.length
    let z ← field .shared .values t z
    let z ← field .uniq .values t z
    let z ← field .uniq .keys t z
    let z ← field .uniq .last t z
    let (lv, z) ← block.insertChild lv (D - 1) inner i z
    let z ← field .uniq .values t z
    leave t (inline g.levels.length) z
    return (⟨⟨lv, g.values ++ [some value], g.keys ++ [index], g.last ++ [(bi, inner)]⟩, i, [], true⟩, z)
  else
    let g := { g with levels := lv }
    let old ← getU g.values di
    let old ← unwrapU old
    if ins then
      let values ← setU g.values di (some value)
      let z ← field .uniq .values t z
      let z ← field .uniq .values t z
      leave t (inline g.levels.length) z
      return (⟨{ g with values := values }, di, [old], true⟩, z)
    else
      let z ← field .uniq .values t z
      leave t (inline g.levels.length) z
      return (⟨g, di, [], false⟩, z)

/-- sparse_tree.rs:388-391 `insert(&mut self)`. -/
def insert {α : Type} (N D : Nat) (g : GT α) (index : Nat) (value : α) (z : St) : R (Typed.InsOut α × St) := do
  let (t, z) ← selfMut g z
  let index ← indexFrom N D index
  let (out, z) ← getOrInsertImpl N D g t index true value z
  leave t (inline g.levels.length) z
  return (out, z)

/-- sparse_tree.rs:370-376 `get_or_insert(&mut self)`. -/
def getOrInsert {α : Type} (N D : Nat) (g : GT α) (index : Nat) (dflt : α) (z : St) : R (Typed.InsOut α × St) := do
  let (t, z) ← selfMut g z
  let index ← indexFrom N D index
  let (out, z) ← getOrInsertImpl N D g t index false dflt z
  leave t (inline g.levels.length) z
  return (out, z)

/-- sparse_tree.rs:305-309: the block of level `n` on the way to the key. -/
def visitedBlock (lbi : List Nat) (n : Nat) : R Nat := if n = 0 then pure 0 else getP lbi (n - 1)

/-- sparse_tree.rs:302-325: one visit of `remove`'s fold, the tuple behind `t`. -/
def removeVisit (li lbi : List Nat) (t : Tag) (z : St) (n : Nat) (L : GLevel) : R ((St × GLevel) × Bool) := do
  let ((_, L'), brk) ← Typed.removeVisit li lbi n L
  let bi ← visitedBlock lbi n
  let (t, z) ← retag .uniq t [.head n] z
  let (b, z) ← blockRef .uniq n L bi t z
  let pl := blockPlace n L.gen bi
  let z ← writeBlock pl b z
  let z ← readBlock pl b z
  if brk then
    leave t [.head n] z
    return ((z, L'), true)
  else if n ≠ 0 then
    let z ← removeEmpty n L bi t z
    leave t [.head n] z
    return ((z, L'), false)
  else
    leave t [.head n] z
    return ((z, L'), false)

/-- sparse_tree.rs:330-358, the tree behind `t`. -/
def moveLast {α : Type} (D : Nat) (g : GT α) (t : Tag) (di : Nat) (z : St) : R (GT α × St) := do
  let last ← unwrapU g.last.getLast?
  let rest := g.last.dropLast
  let z ← field .uniq .last t z
  let z ← field .shared .last t z
  if rest.length > di then
    let rest ← setU rest di last
    let z ← field .uniq .last t z
    let (u, z) ← retag .uniq t (heads g.levels.length) z
    let (z, lv) ← Typed.visitMut g.levels (D - 1) fun i L => do
      let b ← getU L.level.blocks last.1
      let ty ← getP (Typed.levelTypes D) i
      let b ← Typed.setTy b ty last.2 di
      let blocks ← setU L.level.blocks last.1 b
      let (v, z) ← retag .uniq u [.head i] z
      let (p, z) ← blockRef .uniq i L last.1 v z
      let z ← writeBlock (blockPlace i L.gen last.1) p z
      leave v [.head i] z
      return (z, ⟨{ L.level with blocks := blocks }, L.gen⟩)
    leave u (heads g.levels.length) z
    return ({ g with last := rest, levels := lv }, z)
  else return ({ g with last := rest }, z)

/-- sparse_tree.rs:275-366 `remove(&mut self)`. -/
def remove {α : Type} (N D : Nat) (g : GT α) (index : Nat) (z : St) : R ((GT α × Option α) × St) := do
  let (t, z) ← selfMut g z
  let index ← indexFrom N D index
  let li ← levelIndices N D index
  let ((lbi, di), z) ← fetchBlockIndices g.levels t li z
  if di = 0 then
    leave t (inline g.levels.length) z
    return ((g, none), z)
  else
    let (u, z) ← retag .uniq t (heads g.levels.length) z
    let (z, levels) ← Typed.foldRevMut g.levels (removeVisit li lbi u) z
    leave u (heads levels.length) z
    let (g, z) ← moveLast D { g with levels := levels } t di z
    let z ← field .uniq .keys t z
    let (_, keys) ← swapRemove g.keys di
    let z ← field .uniq .values t z
    let (v, values) ← swapRemove g.values di
    let v ← unwrapU v
    leave t (inline D) z
    return (({ g with keys := keys, values := values }, some v), z)

/-- sparse_tree.rs:468-481 `get_mut(&mut self)`. -/
def getMut {α : Type} (N D : Nat) (g : GT α) (index : Nat) (z : St) : R (Option Nat × St) := do
  let (t, z) ← selfMut g z
  let index ← indexFrom N D index
  let li ← levelIndices N D index
  let (di, z) ← fetchBlockIndex g t li z
  if di ≠ 0 then
    let v ← getU g.values di
    let _ ← unwrapU v
    let z ← field .uniq .values t z
    leave t (inline g.levels.length) z
    return (some di, z)
  else
    leave t (inline g.levels.length) z
    return (none, z)

/-- sparse_tree.rs:510-519 `key_values_mut(&mut self)`, with every value overwritten. -/
def mutValues {α : Type} (g : GT α) (f : Nat → α → α) (z : St) : R (GT α × St) := do
  let (t, z) ← selfMut g z
  let z ← field .shared .keys t z
  let z ← field .uniq .values t z
  leave t (inline g.levels.length) z
  let g ← Typed.mutValues g f
  return (g, z)

/-- sparse_tree.rs:522-532 `drop_impl(&mut self)`, called by `drop(&mut self)` (555-576); `required` is `R::REQUIRED`. The slice that is
dropped is made from the pointer the `Vec` stores, so it is not invalidated by `values.len()`. -/
def dropImpl {α : Type} (required : Bool) (g : GT α) (z : St) : R (List α × St) := do
  let (s, z) ← selfMut g z
  let (t, z) ← retag .uniq s (inline g.levels.length) z
  let skip := if required then 0 else 1
  let z ← field .uniq .values t z
  let z ← field .shared .values t z
  if skip ≤ g.values.length then
    let vs ← dropSlice (g.values.drop skip)
    let z ← field .uniq .values t z
    leave t (inline g.levels.length) z
    leave s (inline g.levels.length) z
    return (vs, z)
  else .error .panic

/-- One public operation, as `Typed.step`; the owner calls it, so a `&self` method gets a borrow of the owner's tree. -/
def step {α : Type} (N D : Nat) (g : GT α) (op : Op α) (z : St) : R ((GT α × Option α × List α) × St) :=
  match op with
  | .insert k v => do
    let (out, z) ← insert N D g k v z
    return ((out.tree, none, out.dropped), z)
  | .getOrInsert k d f => do
    let (out, z) ← getOrInsert N D g k d z
    let (g, v) ← Typed.writeRef out.tree out.dataIndex f
    return ((g, some v, out.dropped), z)
  | .remove k => do
    let ((g, v), z) ← remove N D g k z
    return ((g, v, []), z)
  | .get k => do
    let (v, z) ← get N D g none k z
    return ((g, v, []), z)
  | .getMut k f => do
    let (o, z) ← getMut N D g k z
    match o with
    | none => return ((g, none, []), z)
    | some i =>
      let (g, v) ← Typed.writeRef g i f
      return ((g, some v, []), z)
  | .getOrDefault k => do
    let (v, z) ← getOrDefault N D g none k z
    return ((g, some v, []), z)
  | .mutValues f => do
    let (g, z) ← mutValues g f z
    return ((g, none, []), z)

/-- A history. -/
def run {α : Type} (N D : Nat) (g : GT α) : List (Op α) → St → R ((GT α × List (Option α × List α)) × St)
  | [], z => .ok ((g, []), z)
  | op :: ops, z => do
    let ((g, o), z) ← step N D g op z
    let ((g, os), z) ← run N D g ops z
    return ((g, o :: os), z)

/-! ## Users of a shared tree -/

/-- What the holders of copies of one `&'src` tree can do, in any order: lookups, new cursors, moves of and reads through any of the
cursors made so far (an iterator is one of these cursors). -/
inductive Use where
  | get (k : Nat)
  | getOrDefault (k : Nat)
  | keyValues
  | new
  | select (cur n i : Nat)
  | data (cur i : Nat)
deriving Repr

/-- What a use returns. -/
inductive Ret (α : Type) where
  | value (v : Option α)
  | pairs (kv : List Nat × List (Option α))
  | mask (m : Mask)
  | unit

/-- One use; `cs` are the cursors made so far, `t` the tag of the shared reference. -/
def useStep {α : Type} (N D : Nat) (g : GT α) (t : Tag) (cs : List Cursor) (z : St) : Use → R ((Ret α × List Cursor) × St)
  | .get k => do
    let (v, z) ← get N D g t k z
    return ((.value v, cs), z)
  | .getOrDefault k => do
    let (v, z) ← getOrDefault N D g t k z
    return ((.value (some v), cs), z)
  | .keyValues => do
    let (kv, z) ← keyValues g t z
    return ((.pairs kv, cs), z)
  | .new => .ok ((.unit, cs ++ [List.replicate (D - 1) none]), z)
  | .select j n i => do
    let c ← getP cs j
    let ((m, c), z) ← curSelect c g t n i z
    return ((.mask m, cs.set j c), z)
  | .data j i => do
    let c ← getP cs j
    let (v, z) ← curData D c g t i z
    return ((.value v, cs), z)

/-- Any sequence of uses. -/
def useRun {α : Type} (N D : Nat) (g : GT α) (t : Tag) : List Cursor → St → List Use → R ((List (Ret α) × List Cursor) × St)
  | cs, z, [] => .ok (([], cs), z)
  | cs, z, u :: us => do
    let ((r, cs), z) ← useStep N D g t cs z u
    let ((rs, cs), z) ← useRun N D g t cs z us
    return ((r :: rs, cs), z)

/-- The owner lends the tree to such users. -/
def share {α : Type} (N D : Nat) (g : GT α) (us : List Use) (z : St) : R (List (Ret α) × St) := do
  let (t, z) ← retag .shared none (inline g.levels.length) z
  let ((rs, _), z) ← useRun N D g t [] z us
  return (rs, z)

end Hibit.SAlias
