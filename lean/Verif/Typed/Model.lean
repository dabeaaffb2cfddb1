import Verif.Sparse.History
/-!
# SparseTree with its level tuple, visitors and erased block pointers

`Verif/Sparse/Model.lean` inlines the visitors and lets a block pointer be a position in the list of blocks.
Here the same functions run as written: the levels are a tuple that can only be reached through the
`match` arms and unrolled loops that `sparse_array_levels_impl!` generates (sparse_tree_levels.rs:75-180),
and blocks are reached through untyped pointers that are cast to the block type of a statically given
level (sparse_tree.rs:96-236). A pointer remembers where it came from; the use of a pointer whose buffer
was reallocated since, or its cast to another type than the one of the block, is undefined behaviour.
-/
namespace Hibit.Typed
open Hibit Hibit.Sparse

/-- A level and the identity of its buffer of blocks: a `push` may reallocate, so it changes. -/
structure GLevel where
  level : Level
  gen : Nat

/-- `BlockPtr`/`*const u8` (sparse_tree.rs:96-118, 633-647): the level and the buffer it points into. -/
structure BPtr where
  level : Nat
  gen : Nat
  pos : Nat

/-- sparse_tree_levels.rs:173-180: the first index list of each instance of the macro. -/
def arms : Nat → List Nat
  | 1 => [0]
  | 2 => [0, 1]
  | 3 => [0, 1, 2]
  | 4 => [0, 1, 2, 3]
  | 5 => [0, 1, 2, 3, 4]
  | 6 => [0, 1, 2, 3, 4, 5]
  | 7 => [0, 1, 2, 3, 4, 5, 6]
  | 8 => [0, 1, 2, 3, 4, 5, 6, 7]
  | _ => []

/-- sparse_tree_levels.rs:173-180: the second index list of each instance of the macro. -/
def revArms : Nat → List Nat
  | 1 => [0]
  | 2 => [1, 0]
  | 3 => [2, 1, 0]
  | 4 => [3, 2, 1, 0]
  | 5 => [4, 3, 2, 1, 0]
  | 6 => [5, 4, 3, 2, 1, 0]
  | 7 => [6, 5, 4, 3, 2, 1, 0]
  | 8 => [7, 6, 5, 4, 3, 2, 1, 0]
  | _ => []

/-- config.rs:19-26, 38, 47, 56 `depth_1` .. `depth_8`: the block type of each level, given by the bits of its
child index type. -/
def levelTypes : Nat → List Nat
  | 1 => [8]
  | 2 => [8, 16]
  | 3 => [8, 16, 32]
  | 4 => [8, 16, 32, 32]
  | 5 => [8, 16, 32, 32, 32]
  | 6 => [8, 16, 32, 32, 32, 32]
  | 7 => [8, 16, 32, 32, 32, 32, 32]
  | 8 => [8, 16, 32, 32, 32, 32, 32, 32]
  | _ => []

/-- A generated `match i.value() { 0 => .., 1 => .., .., _ => unreachable!() }`. -/
def matchArms {β : Type} (i : Nat) (f : Nat → R β) : List Nat → R β
  | [] => .error .panic
  | j :: js => if i = j then f j else matchArms i f js

/-- sparse_tree_levels.rs:111-119 `visit`. A field `self.$i` of the tuple always exists. -/
def visit {β : Type} (lv : List GLevel) (i : Nat) (f : Nat → GLevel → R β) : R β :=
  matchArms i (fun j => do let L ← getP lv j; f i L) (arms lv.length)

/-- sparse_tree_levels.rs:121-129 `visit_mut`. -/
def visitMut {β : Type} (lv : List GLevel) (i : Nat) (f : Nat → GLevel → R (β × GLevel)) :
    R (β × List GLevel) :=
  matchArms i (fun j => do
    let L ← getP lv j
    let (b, L) ← f i L
    return (b, lv.set j L)) (arms lv.length)

/-- sparse_tree_levels.rs:91-109 `visit_type`. -/
def visitType {β : Type} (D i : Nat) (f : Nat → R β) : R β :=
  matchArms i (fun j => do let ty ← getP (levelTypes D) j; f ty) (arms D)

/-- sparse_tree_levels.rs:155-169 `fold_n`; the visitor's own state is part of the accumulator, the flag of a
visit is `true` for `Break`. -/
def foldNArms {σ : Type} (lv : List GLevel) (n : Nat) (v : σ → Nat → GLevel → R (σ × Bool)) :
    List Nat → σ → R σ
  | [], s => .ok s
  | i :: is, s =>
    if i = n then .ok s
    else do
      let L ← getP lv i
      let (s, brk) ← v s i L
      if brk then return s else foldNArms lv n v is s

def foldN {σ : Type} (lv : List GLevel) (n : Nat) (v : σ → Nat → GLevel → R (σ × Bool)) (s : σ) : R σ :=
  foldNArms lv n v (arms lv.length) s

/-- sparse_tree_levels.rs:62-64 `fold`. -/
def fold {σ : Type} (lv : List GLevel) (v : σ → Nat → GLevel → R (σ × Bool)) (s : σ) : R σ :=
  foldN lv lv.length v s

/-- The unrolled body of sparse_tree_levels.rs:131-140 and 142-153. -/
def foldMutArms {σ : Type} (v : σ → Nat → GLevel → R ((σ × GLevel) × Bool)) :
    List Nat → σ → List GLevel → R (σ × List GLevel)
  | [], s, lv => .ok (s, lv)
  | i :: is, s, lv => do
    let L ← getP lv i
    let ((s, L), brk) ← v s i L
    if brk then return (s, lv.set i L) else foldMutArms v is s (lv.set i L)

/-- sparse_tree_levels.rs:131-140 `fold_mut`. -/
def foldMut {σ : Type} (lv : List GLevel) (v : σ → Nat → GLevel → R ((σ × GLevel) × Bool)) (s : σ) :
    R (σ × List GLevel) := foldMutArms v (arms lv.length) s lv

/-- sparse_tree_levels.rs:142-153 `fold_rev_mut`. -/
def foldRevMut {σ : Type} (lv : List GLevel) (v : σ → Nat → GLevel → R ((σ × GLevel) × Bool)) (s : σ) :
    R (σ × List GLevel) := foldMutArms v (revArms lv.length) s lv

/-- `insert_empty_block` (intrusive_list_level.rs:78-87): `blocks.push` may move the buffer. -/
def GLevel.insertEmpty (N : Nat) (L : GLevel) : R (Nat × GLevel) := do
  let (i, L') ← L.level.insertEmpty N
  return (i, ⟨L', if L'.blocks.length = L.level.blocks.length then L.gen else L.gen + 1⟩)

/-- sparse_tree.rs:191-212, 214-235 `get_block`, `get_block_mut`. -/
def getBlock (lv : List GLevel) (n pos : Nat) : R BPtr :=
  visit lv n fun _ L => do
    let _ ← getU L.level.blocks pos
    return ⟨n, L.gen, pos⟩

/-- `*(ptr as *const L::Block)` where the block type of `L` is `ty`. -/
def readAs (lv : List GLevel) (p : BPtr) (ty : Nat) : R Block :=
  match lv[p.level]?, (levelTypes lv.length)[p.level]? with
  | some L, some ty' => if L.gen = p.gen ∧ ty' = ty then getU L.level.blocks p.pos else .error .ub
  | _, _ => .error .ub

/-- Writing through `ptr as *mut L::Block`. -/
def writeAs (lv : List GLevel) (p : BPtr) (ty : Nat) (b : Block) : R (List GLevel) :=
  match lv[p.level]?, (levelTypes lv.length)[p.level]? with
  | some L, some ty' =>
    if L.gen = p.gen ∧ ty' = ty then do
      let blocks ← setU L.level.blocks p.pos b
      return lv.set p.level ⟨{ L.level with blocks := blocks }, L.gen⟩
    else .error .ub
  | _, _ => .error .ub

/-- sparse_tree.rs:124-143 `BlockPtr<Levels, n>::get_mask`. -/
def BPtr.getMask (lv : List GLevel) (n : Nat) (p : BPtr) : R Mask :=
  visitType lv.length n fun ty => do
    let b ← readAs lv p ty
    return b.mask

/-- sparse_tree.rs:145-163 `get_child`. -/
def BPtr.getChild (lv : List GLevel) (n : Nat) (p : BPtr) (i : Nat) : R Nat :=
  visitType lv.length n fun ty => do
    let b ← readAs lv p ty
    b.getOrZero i

/-- block.rs:99-106 `insert` with the conversion to the index type `ty` of sparse_tree.rs:177. -/
def insertTy (b : Block) (ty i item : Nat) : R Block := do
  let (_, mask) ← setBit true b.mask i
  let idx ← setU b.idx i (item % 2 ^ ty)
  return ⟨mask, idx⟩

/-- sparse_tree.rs:165-183 `insert_child`. -/
def BPtr.insertChild (lv : List GLevel) (n : Nat) (p : BPtr) (i item : Nat) : R (List GLevel) :=
  visitType lv.length n fun ty => do
    let b ← readAs lv p ty
    let b ← insertTy b ty i item
    writeAs lv p ty b

/-- sparse_tree.rs:237-267 `fetch_block_indices`; the state of the visitor is `out`. -/
def fetchBlockIndices (lv : List GLevel) (li : List Nat) : R (List Nat × Nat) :=
  fold lv (fun s i L => do
    let block ← getU L.level.blocks s.2
    let inBlock ← getU li i
    let bi ← block.getOrZero inBlock
    let out ← setU s.1 i bi
    return ((out, bi), false)) (List.replicate lv.length 0, 0)

/-- sparse_tree.rs:302-325: one visit of `remove`'s fold. -/
def removeVisit (li lbi : List Nat) (n : Nat) (L : GLevel) : R ((Unit × GLevel) × Bool) := do
  let bi ← if n = 0 then pure 0 else getP lbi (n - 1)
  let b ← getU L.level.blocks bi
  let inner ← getP li n
  let b ← b.remove inner
  let blocks ← setU L.level.blocks bi b
  let L' := { L.level with blocks := blocks }
  if b.isEmpty then
    let L' ← if n ≠ 0 then L'.removeEmpty bi else pure L'
    return (((), ⟨L', L.gen⟩), false)
  else return (((), ⟨L', L.gen⟩), true)

/-- sparse_tree.rs:47-66 `SparseTree`. -/
structure GT (α : Type) where
  levels : List GLevel
  values : List (Option α)
  keys : List Nat
  last : List (Nat × Nat)

/-- sparse_tree.rs:68-94 `default()`. -/
def default (α : Type) (N D : Nat) (dflt : Option α) : GT α :=
  ⟨(List.range D).map (fun n => ⟨Level.default N (n == 0), 0⟩), [dflt], [usizeMod - 1], [(0, 0)]⟩

/-- block.rs:115-118 `set_unchecked` with the conversion of sparse_tree.rs:353. -/
def setTy (b : Block) (ty i item : Nat) : R Block := do
  let idx ← setU b.idx i (item % 2 ^ ty)
  return { b with idx := idx }

/-- sparse_tree.rs:330-358. The visitor knows the level's type `L`, hence its block type. -/
def moveLast {α : Type} (D : Nat) (t : GT α) (di : Nat) : R (GT α) := do
  let last ← unwrapU t.last.getLast?
  let rest := t.last.dropLast
  if rest.length > di then
    let rest ← setU rest di last
    let (_, lv) ← visitMut t.levels (D - 1) fun i L => do
      let b ← getU L.level.blocks last.1
      let ty ← getP (levelTypes D) i
      let b ← setTy b ty last.2 di
      let blocks ← setU L.level.blocks last.1 b
      return ((), ⟨{ L.level with blocks := blocks }, L.gen⟩)
    return { t with last := rest, levels := lv }
  else return { t with last := rest }

/-- sparse_tree.rs:275-366 `remove`. -/
def remove {α : Type} (N D : Nat) (t : GT α) (index : Nat) : R (GT α × Option α) := do
  let index ← indexFrom N D index
  let li ← levelIndices N D index
  let (lbi, di) ← fetchBlockIndices t.levels li
  if di = 0 then return (t, none)
  else
    let (_, levels) ← foldRevMut t.levels (fun _ n L => removeVisit li lbi n L) ()
    let t ← moveLast D { t with levels := levels } di
    let (_, keys) ← swapRemove t.keys di
    let (v, values) ← swapRemove t.values di
    let v ← unwrapU v
    return ({ t with keys := keys, values := values }, some v)

/-- sparse_tree.rs:402-437. -/
def insertStep (N : Nat) (li : List Nat) (st : List GLevel × Nat) (n : Nat) :
    R ((List GLevel × Nat) × Bool) := do
  let inner ← getP li n
  let block ← getBlock st.1 n st.2
  let next ← block.getChild st.1 n inner
  if next = 0 then
    let (new, lv) ← visitMut st.1 (n + 1) fun _ L => L.insertEmpty N
    let ptr ← getBlock lv n st.2
    let lv ← ptr.insertChild lv n inner new
    return ((lv, new), false)
  else return ((st.1, next), false)

/-- Result of `get_or_insert_impl`. -/
structure InsOut (α : Type) where
  tree : GT α
  dataIndex : Nat
  dropped : List α
  called : Bool

/-- sparse_tree.rs:395-463 `get_or_insert_impl`. The pointer `block` is used again after the `push`es. -/
def getOrInsertImpl {α : Type} (N D : Nat) (t : GT α) (index : Nat) (ins : Bool) (value : α) :
    R (InsOut α) := do
  let li ← levelIndices N D index
  let inner ← unwrapU li.getLast?
  let ((lv, bi), _) ← constLoop 0 (D - 1) (insertStep N li) (t.levels, 0)
  let block ← getBlock lv (D - 1) bi
  let di ← block.getChild lv (D - 1) inner
  if di = 0 then
    let i := t.values.length
    let lv ← block.insertChild lv (D - 1) inner i
    return ⟨⟨lv, t.values ++ [some value], t.keys ++ [index], t.last ++ [(bi, inner)]⟩, i, [], true⟩
  else
    let t := { t with levels := lv }
    let old ← getU t.values di
    let old ← unwrapU old
    if ins then
      let values ← setU t.values di (some value)
      return ⟨{ t with values := values }, di, [old], true⟩
    else return ⟨t, di, [], false⟩

/-- sparse_tree.rs:270-272 `fetch_block_index`. -/
def fetchBlockIndex {α : Type} (t : GT α) (li : List Nat) : R Nat := do
  let (_, r) ← fetchBlockIndices t.levels li
  return r

/-- sparse_tree.rs:388-391 `insert`. -/
def insert {α : Type} (N D : Nat) (t : GT α) (index : Nat) (value : α) : R (InsOut α) := do
  let index ← indexFrom N D index
  getOrInsertImpl N D t index true value

/-- sparse_tree.rs:370-376 `get_or_insert`. -/
def getOrInsert {α : Type} (N D : Nat) (t : GT α) (index : Nat) (dflt : α) : R (InsOut α) := do
  let index ← indexFrom N D index
  getOrInsertImpl N D t index false dflt

/-- sparse_tree.rs:468-481 `get_mut`. -/
def getMut {α : Type} (N D : Nat) (t : GT α) (index : Nat) : R (Option Nat) := do
  let index ← indexFrom N D index
  let li ← levelIndices N D index
  let di ← fetchBlockIndex t li
  if di ≠ 0 then
    let v ← getU t.values di
    let _ ← unwrapU v
    return some di
  else return none

/-- sparse_tree.rs:544-552 `get_or_default`. -/
def getOrDefault {α : Type} (N D : Nat) (t : GT α) (index : Nat) : R α := do
  let index ← indexFrom N D index
  let li ← levelIndices N D index
  let di ← fetchBlockIndex t li
  let v ← getU t.values di
  unwrapU v

/-- sparse_tree.rs:615-622 `HibitTree::data`. -/
def treeData {α : Type} (t : GT α) (li : List Nat) : R (Option α) := do
  let di ← fetchBlockIndex t li
  if di = 0 then return none
  else
    let v ← getU t.values di
    let v ← unwrapU v
    return some v

/-- sparse_tree.rs:633-647 `Cursor`: erased pointers, `none` is null. -/
abbrev Cursor := List (Option BPtr)

/-- sparse_tree.rs:681-710 `select_level_node` (and 672-676): the stored pointer of level `n - 1` is cast to
`BlockPtr<Levels, N::Dec>`. -/
def curSelect {α : Type} (c : Cursor) (t : GT α) (n i : Nat) : R (Mask × Cursor) := do
  if n = 0 then
    if i ≠ 0 then .error .panic
    else
      let block ← getBlock t.levels n 0
      let m ← block.getMask t.levels n
      return (m, c)
  else
    let prev ← (if n = 1 then getBlock t.levels 0 0
      else do
        let o ← getU c (n - 1 - 1)
        unwrapU o)
    let bi ← prev.getChild t.levels (n - 1) i
    let block ← getBlock t.levels n bi
    let c ← setU c (n - 1) (some block)
    let m ← block.getMask t.levels n
    return (m, c)

/-- sparse_tree.rs:720-741 `Cursor::data`. -/
def curData {α : Type} (D : Nat) (c : Cursor) (t : GT α) (i : Nat) : R (Option α) := do
  let block ← (if D = 1 then getBlock t.levels 0 0
    else do
      let o ← unwrapU c.getLast?
      unwrapU o)
  let di ← block.getChild t.levels (D - 1) i
  if di = 0 then return none
  else
    let v ← getU t.values di
    let v ← unwrapU v
    return some v

/-- sparse_tree.rs:596-631 (tree) and 658-741 (cursor). -/
def impl (α : Type) (N D : Nat) : Impl (GT α) Cursor α where
  N := N
  D := D
  exact := true
  data := fun t _ li => treeData t li
  dataU := fun t _ li => do let d ← treeData t li; unwrapU d
  new := fun _ => .ok (List.replicate (D - 1) none)
  select := curSelect
  selectU := curSelect
  curData := curData D
  curDataU := fun c t i => do let d ← curData D c t i; unwrapU d

/-- Reading and overwriting through the returned `&mut Data`. -/
def writeRef {α : Type} (t : GT α) (i : Nat) (g : α → α) : R (GT α × α) := do
  let old ← getU t.values i
  let old ← unwrapU old
  let values ← setU t.values i (some (g old))
  return ({ t with values := values }, old)

/-- sparse_tree.rs:499-519 `key_values`, `key_values_mut`. -/
def keyValues {α : Type} (t : GT α) : R (List Nat × List (Option α)) :=
  if 1 ≤ t.keys.length ∧ 1 ≤ t.values.length then .ok (t.keys.drop 1, t.values.drop 1)
  else .error .ub

/-- Overwriting every value through `key_values_mut()`. -/
def mutValues {α : Type} (t : GT α) (g : Nat → α → α) : R (GT α) := do
  let (ks, vs) ← keyValues t
  return { t with values := t.values.take 1 ++ List.zipWith (fun k v => v.map (g k)) ks vs }

/-- One public operation, as `Sparse.step`. -/
def step {α : Type} (N D : Nat) (t : GT α) : Op α → R (GT α × Option α × List α)
  | .insert k v => do
    let out ← insert N D t k v
    return (out.tree, none, out.dropped)
  | .getOrInsert k d g => do
    let out ← getOrInsert N D t k d
    let (t, v) ← writeRef out.tree out.dataIndex g
    return (t, some v, out.dropped)
  | .remove k => do
    let (t, v) ← remove N D t k
    return (t, v, [])
  | .get k => do
    let v ← (impl α N D).get t k
    return (t, v, [])
  | .getMut k g => do
    let o ← getMut N D t k
    match o with
    | none => return (t, none, [])
    | some i =>
      let (t, v) ← writeRef t i g
      return (t, some v, [])
  | .getOrDefault k => do
    let v ← getOrDefault N D t k
    return (t, some v, [])
  | .mutValues g => do
    let t ← mutValues t g
    return (t, none, [])

/-- A history. -/
def run {α : Type} (N D : Nat) (t : GT α) : List (Op α) → R (GT α × List (Option α × List α))
  | [] => .ok (t, [])
  | op :: ops => do
    let (t, o) ← step N D t op
    let (t, os) ← run N D t ops
    return (t, o :: os)

end Hibit.Typed
