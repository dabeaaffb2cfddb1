import Verif.Bits.Model
import Verif.Interface
import Verif.ConstFor
/-!
# SparseTree: the model

`src/sparse_tree.rs`, `src/sparse_tree_levels.rs`, `src/config.rs`, `src/level/single_block_level.rs`,
`src/level/intrusive_list_level.rs`, `src/level_block/block.rs`, `src/utils/primitive.rs`,
`src/req_default.rs`.

A configuration is the number `N` of mask words and the depth `D`; all shipped configurations
(config.rs:14-61) are `width_{64·N}::depth_D`. The visitor machinery of sparse_tree_levels.rs is
inlined: a visit of level `n` is an access to the `n`-th element of the list of levels
(`unreachable!()` beyond it).
-/
namespace Hibit.Sparse
open Hibit

/-- block.rs:9-14 `Block<Mask, [uX; W]>`: the mask and the child indices. -/
structure Block where
  mask : Mask
  idx : List Nat

/-- Bits of the child index type of level `n`: config.rs:15-17, 38, 47, 56
(root `u8`, first level `u16`, all others `u32`). -/
def idxBits (n : Nat) : Nat := match n with
  | 0 => 8
  | 1 => 16
  | _ => 32

/-- primitive.rs:56-58 `Primitive::from_usize` into the index type of level `n`: `i as Self`. -/
def fromUsize (n : Nat) (i : Nat) : Nat := i % 2 ^ idxBits n

/-- block.rs:22-28 `Block::empty`. -/
def Block.empty (N : Nat) : Block := ⟨zeroMask N, List.replicate (width N) 0⟩

/-- block.rs:31-33 `Block::is_empty`. -/
def Block.isEmpty (b : Block) : Bool := isZero b.mask

/-- block.rs:75-78 `get_or_zero`. -/
def Block.getOrZero (b : Block) (i : Nat) : R Nat := getU b.idx i

/-- block.rs:99-106 `insert`, in a block of level `n`, with the conversion of
sparse_tree.rs:177. -/
def Block.insert (b : Block) (n i item : Nat) : R Block := do
  let (_, mask) ← setBit true b.mask i
  let idx ← setU b.idx i (fromUsize n item)
  return ⟨mask, idx⟩

/-- block.rs:109-112 `remove_unchecked`. -/
def Block.remove (b : Block) (i : Nat) : R Block := do
  let (_, mask) ← setBit false b.mask i
  let idx ← setU b.idx i 0
  return ⟨mask, idx⟩

/-- block.rs:115-118 `set_unchecked`, with the conversion of sparse_tree.rs:353. -/
def Block.set (b : Block) (n i item : Nat) : R Block := do
  let idx ← setU b.idx i (fromUsize n item)
  return { b with idx := idx }

/-- A level: single_block_level.rs:6-8 (`single`, one block) or intrusive_list_level.rs:6-13.
`rootEmpty` is the `u64` head of the free list. -/
structure Level where
  single : Bool
  blocks : List Block
  rootEmpty : Word

/-- `u64::MAX`, the terminator of the free list. -/
def freeEnd : Word := BitVec.allOnes 64

/-- single_block_level.rs:33-38, intrusive_list_level.rs:15-24. -/
def Level.default (N : Nat) (single : Bool) : Level := ⟨single, [Block.empty N], freeEnd⟩

/-- intrusive_list_level.rs:36-54 `pop_empty_block`; the link is word 0 of the mask
(block.rs:42-51). -/
def Level.popEmpty (L : Level) : R (Option Nat × Level) := do
  if L.rootEmpty = freeEnd then return (none, L)
  else
    let index := L.rootEmpty.toNat
    let b ← getU L.blocks index
    let next ← getU b.mask 0
    let mask ← setU b.mask 0 0
    let blocks ← setU L.blocks index { b with mask := mask }
    return (some index, ⟨L.single, blocks, next⟩)

/-- intrusive_list_level.rs:78-87 `insert_empty_block`; `unreachable!()` for the single block
level (single_block_level.rs:23-25). -/
def Level.insertEmpty (N : Nat) (L : Level) : R (Nat × Level) := do
  if L.single then .error .panic
  else
    let (o, L) ← L.popEmpty
    match o with
    | some i => return (i, L)
    | none => return (L.blocks.length, { L with blocks := L.blocks ++ [Block.empty N] })

/-- intrusive_list_level.rs:60-66, 90-92 `remove_empty_block_unchecked`; `unreachable!()` for the
single block level (single_block_level.rs:27-29). `block_index as u64`. -/
def Level.removeEmpty (L : Level) (bi : Nat) : R Level := do
  if L.single then .error .panic
  else
    let b ← getU L.blocks bi
    let mask ← setU b.mask 0 L.rootEmpty
    let blocks ← setU L.blocks bi { b with mask := mask }
    return ⟨L.single, blocks, BitVec.ofNat 64 bi⟩

/-- sparse_tree.rs:47-66 `SparseTree`. `none` in `values` is uninitialised memory (the placeholder
when `R = ReqDefault<false>`). -/
structure ST (α : Type) where
  levels : List Level
  values : List (Option α)
  keys : List Nat
  last : List (Nat × Nat)

/-- sparse_tree.rs:68-94 `default()`; `dflt = some d` for `ReqDefault<true>` with
`d = Data::default()`, `none` for `ReqDefault<false>` (req_default.rs:18-30).
Levels: config.rs:15-26. -/
def default (α : Type) (N D : Nat) (dflt : Option α) : ST α :=
  ⟨(List.range D).map (fun n => Level.default N (n == 0)), [dflt], [usizeMod - 1], [(0, 0)]⟩

/-- sparse_tree.rs:238-267 `fetch_block_indices`: the fold over the levels from level `n` with
accumulator `acc`; the list of child indices and the last one. -/
def fetchFrom (li : List Nat) : (n acc : Nat) → List Level → R (List Nat × Nat)
  | _, acc, [] => .ok ([], acc)
  | n, acc, L :: Ls => do
    let block ← getU L.blocks acc
    let inBlock ← getU li n
    let bi ← block.getOrZero inBlock
    let (out, r) ← fetchFrom li (n + 1) bi Ls
    return (bi :: out, r)

/-- sparse_tree.rs:238-267 `fetch_block_indices`. -/
def fetchBlockIndices {α : Type} (t : ST α) (li : List Nat) : R (List Nat × Nat) :=
  fetchFrom li 0 0 t.levels

/-- sparse_tree.rs:269-272 `fetch_block_index`. -/
def fetchBlockIndex {α : Type} (t : ST α) (li : List Nat) : R Nat := do
  let (_, r) ← fetchBlockIndices t li
  return r

/-- sparse_tree.rs:290-325: `fold_rev_mut` over the levels `n - 1, …, 0`
(sparse_tree_levels.rs:129-141). -/
def removeLoop (li lbi : List Nat) : (n : Nat) → List Level → R (List Level)
  | 0, lv => .ok lv
  | n + 1, lv => do
    let L ← getP lv n
    let bi ← if n = 0 then pure 0 else getP lbi (n - 1)
    let b ← getU L.blocks bi
    let inner ← getP li n
    let b ← b.remove inner
    let blocks ← setU L.blocks bi b
    let L := { L with blocks := blocks }
    if b.isEmpty then
      let L ← if n ≠ 0 then L.removeEmpty bi else pure L
      removeLoop li lbi n (lv.set n L)
    else return lv.set n L

/-- `Vec::swap_remove`. -/
def swapRemove {β : Type} (l : List β) (i : Nat) : R (β × List β) := do
  let v ← getP l i
  let last ← unwrapU l.getLast?
  return (v, (l.set i last).dropLast)

/-- sparse_tree.rs:330-358: pop the coordinates of the last value, move them to the freed
position and redirect its slot. -/
def moveLast {α : Type} (D : Nat) (t : ST α) (di : Nat) : R (ST α) := do
  let last ← unwrapU t.last.getLast?
  let rest := t.last.dropLast
  if rest.length > di then
    let rest ← setU rest di last
    let L ← getP t.levels (D - 1)
    let b ← getU L.blocks last.1
    let b ← b.set (D - 1) last.2 di
    let blocks ← setU L.blocks last.1 b
    return { t with last := rest, levels := t.levels.set (D - 1) { L with blocks := blocks } }
  else return { t with last := rest }

/-- sparse_tree.rs:275-366 `remove`. -/
def remove {α : Type} (N D : Nat) (t : ST α) (index : Nat) : R (ST α × Option α) := do
  let index ← indexFrom N D index
  let li ← levelIndices N D index
  let (lbi, di) ← fetchBlockIndices t li
  if di = 0 then return (t, none)
  else
    let levels ← removeLoop li lbi D t.levels
    let t ← moveLast D { t with levels := levels } di
    let (_, keys) ← swapRemove t.keys di
    let (v, values) ← swapRemove t.values di
    let v ← unwrapU v
    return ({ t with keys := keys, values := values }, some v)

/-- sparse_tree.rs:402-437: the body of the `const_loop!`; the state is the levels and
`level_block_index`. -/
def insertStep (N : Nat) (li : List Nat) (st : List Level × Nat) (n : Nat) :
    R ((List Level × Nat) × Bool) := do
  let inner ← getP li n
  let L ← getP st.1 n
  let b ← getU L.blocks st.2
  let next ← b.getOrZero inner
  if next = 0 then
    let L1 ← getP st.1 (n + 1)
    let (new, L1) ← L1.insertEmpty N
    let lv := st.1.set (n + 1) L1
    let L ← getP lv n
    let b ← getU L.blocks st.2
    let b ← b.insert n inner new
    let blocks ← setU L.blocks st.2 b
    return ((lv.set n { L with blocks := blocks }, new), false)
  else return ((st.1, next), false)

/-- Result of `get_or_insert_impl`: the tree, the position in `values` of the returned reference,
the values dropped, and whether `value_fn` was called. -/
structure InsOut (α : Type) where
  tree : ST α
  dataIndex : Nat
  dropped : List α
  called : Bool

/-- sparse_tree.rs:395-463 `get_or_insert_impl`; `ins` is the const flag `insert`, `value` what
`value_fn` returns. -/
def getOrInsertImpl {α : Type} (N D : Nat) (t : ST α) (index : Nat) (ins : Bool) (value : α) :
    R (InsOut α) := do
  let li ← levelIndices N D index
  let inner ← unwrapU li.getLast?
  let ((lv, bi), _) ← constLoop 0 (D - 1) (insertStep N li) (t.levels, 0)
  let L ← getP lv (D - 1)
  let b ← getU L.blocks bi
  let di ← b.getOrZero inner
  if di = 0 then
    let i := t.values.length
    let b ← b.insert (D - 1) inner i
    let blocks ← setU L.blocks bi b
    return ⟨⟨lv.set (D - 1) { L with blocks := blocks }, t.values ++ [some value],
      t.keys ++ [index], t.last ++ [(bi, inner)]⟩, i, [], true⟩
  else
    let t := { t with levels := lv }
    let old ← getU t.values di
    let old ← unwrapU old   -- the returned reference / the assignment's drop need a valid value
    if ins then
      let values ← setU t.values di (some value)
      return ⟨{ t with values := values }, di, [old], true⟩
    else return ⟨t, di, [], false⟩

/-- sparse_tree.rs:388-391 `insert`. -/
def insert {α : Type} (N D : Nat) (t : ST α) (index : Nat) (value : α) : R (InsOut α) := do
  let index ← indexFrom N D index
  getOrInsertImpl N D t index true value

/-- sparse_tree.rs:370-376 `get_or_insert`; `dflt` is `Data::default()`. -/
def getOrInsert {α : Type} (N D : Nat) (t : ST α) (index : Nat) (dflt : α) : R (InsOut α) := do
  let index ← indexFrom N D index
  getOrInsertImpl N D t index false dflt

/-- sparse_tree.rs:468-481 `get_mut`: the position in `values` of the returned reference. -/
def getMut {α : Type} (N D : Nat) (t : ST α) (index : Nat) : R (Option Nat) := do
  let index ← indexFrom N D index
  let li ← levelIndices N D index
  let di ← fetchBlockIndex t li
  if di ≠ 0 then
    let v ← getU t.values di
    let _ ← unwrapU v
    return some di
  else return none

/-- sparse_tree.rs:487-495 `get_mut_unchecked`: `unwrap_unchecked` of `get_mut`. -/
def getMutU {α : Type} (N D : Nat) (t : ST α) (index : Nat) : R Nat := do
  let o ← getMut N D t index
  unwrapU o

/-- sparse_tree.rs:499-519 `key_values`, `key_values_mut`: `get_unchecked(1..)` on both vectors. -/
def keyValues {α : Type} (t : ST α) : R (List Nat × List (Option α)) :=
  if 1 ≤ t.keys.length ∧ 1 ≤ t.values.length then .ok (t.keys.drop 1, t.values.drop 1)
  else .error .ub

/-- `drop_in_place` of a slice: every element must be initialised; the list of dropped values. -/
def dropSlice {α : Type} : List (Option α) → R (List α)
  | [] => .ok []
  | v :: vs => do
    let v ← unwrapU v
    let rest ← dropSlice vs
    return v :: rest

/-- sparse_tree.rs:522-532 `drop_impl`; `required` is `R::REQUIRED`. -/
def dropImpl {α : Type} (required : Bool) (t : ST α) : R (List α) :=
  let skip := if required then 0 else 1
  if skip ≤ t.values.length then dropSlice (t.values.drop skip) else .error .panic

/-- sparse_tree.rs:544-552 `get_or_default` (only with `ReqDefault<true>`). -/
def getOrDefault {α : Type} (N D : Nat) (t : ST α) (index : Nat) : R α := do
  let index ← indexFrom N D index
  let li ← levelIndices N D index
  let di ← fetchBlockIndex t li
  let v ← getU t.values di
  unwrapU v

/-- sparse_tree.rs:615-622 `HibitTree::data`. -/
def treeData {α : Type} (t : ST α) (li : List Nat) : R (Option α) := do
  let di ← fetchBlockIndex t li
  if di = 0 then return none
  else
    let v ← getU t.values di
    let v ← unwrapU v
    return some v

/-- sparse_tree.rs:633-647 `Cursor`: pointers to the selected blocks of the levels ≥ 1; a pointer
into the block array of its level is modelled by the position, null by `none`. -/
abbrev Cursor := List (Option Nat)

/-- sparse_tree.rs:693-701: the block selected at level `n - 1`. -/
def prevBlock (c : Cursor) (n : Nat) : R Nat :=
  if n = 1 then .ok 0
  else do
    let o ← getU c (n - 1 - 1)
    unwrapU o

/-- sparse_tree.rs:681-710 `select_level_node` (and 672-676 `select_level_node_unchecked`). -/
def curSelect {α : Type} (c : Cursor) (t : ST α) (n i : Nat) : R (Mask × Cursor) := do
  if n = 0 then
    if i ≠ 0 then .error .panic
    else
      let L ← getP t.levels 0
      let b ← getU L.blocks 0
      return (b.mask, c)
  else
    let prev ← prevBlock c n
    let Lp ← getP t.levels (n - 1)
    let bp ← getU Lp.blocks prev
    let bi ← bp.getOrZero i
    let L ← getP t.levels n
    let b ← getU L.blocks bi
    let c ← setU c (n - 1) (some bi)
    return (b.mask, c)

/-- sparse_tree.rs:723-732: the terminal block selected by the cursor. -/
def curBlock (D : Nat) (c : Cursor) : R Nat :=
  if D = 1 then .ok 0
  else do
    let o ← unwrapU c.getLast?
    unwrapU o

/-- sparse_tree.rs:720-741 `Cursor::data`. -/
def curData {α : Type} (D : Nat) (c : Cursor) (t : ST α) (i : Nat) : R (Option α) := do
  let bi ← curBlock D c
  let L ← getP t.levels (D - 1)
  let b ← getU L.blocks bi
  let di ← b.getOrZero i
  if di = 0 then return none
  else
    let v ← getU t.values di
    let v ← unwrapU v
    return some v

/-- sparse_tree.rs:596-631 (tree) and 658-741 (cursor). -/
def impl (α : Type) (N D : Nat) : Impl (ST α) Cursor α where
  N := N
  D := D
  exact := true
  data := fun t _ li => treeData t li
  -- sparse_tree.rs:626-630: `unwrap_unchecked` of `data`
  dataU := fun t _ li => do let d ← treeData t li; unwrapU d
  -- sparse_tree.rs:664-669
  new := fun _ => .ok (List.replicate (D - 1) none)
  select := curSelect
  selectU := curSelect
  curData := curData D
  -- sparse_tree.rs:713-717
  curDataU := fun c t i => do let d ← curData D c t i; unwrapU d

end Hibit.Sparse
