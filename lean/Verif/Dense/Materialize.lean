import Verif.Dense.Model
/-!
# `materialize`: `FromHibitTree for DenseTree` (src/dense_tree/from.rs), the model

The source tree is any implementation `I` of the tree interface with 64-bit masks; its depth is
the depth of the new tree (the `where` clauses of from.rs:139-151).
-/
namespace Hibit.Dense
open Hibit

/-- `mask.traverse_bits(body)` with a body that may panic; a panic ends the traversal, and the
body itself always returns `Continue` (from.rs:40-48, 77-90, 124-131). -/
def traverseM {σ : Type} (body : σ → Nat → R σ) (st : σ) (m : Mask) : R σ := do
  let (r, _) ← traverseBits (σ := R σ)
    (fun r i =>
      match r >>= fun st => body st i with
      | .ok st => (.ok st, false)
      | .error e => (.error e, true)) (.ok st) m
  r

/-- `a + b` on `usize` (debug build). -/
def addUsize (a b : Nat) : R Nat := if a + b < usizeMod then .ok (a + b) else .error .panic

/-- `a << s` on `usize` (debug build). -/
def shlUsize (a s : Nat) : R Nat := if s < 64 then .ok (a * 2 ^ s % usizeMod) else .error .panic

/-- from.rs:19-25 `block_start`. -/
def blockStart (D n index : Nat) : R Nat := shlUsize index (ilog2w 1 * (D - n - 1))

/-- node.rs:240-252 `raw_new`. -/
def rawNew (h : Heap) (k : Kind) (cap : Nat) (mask : Word) : Heap × Nat :=
  h.alloc ⟨k, mask, cap, 0, List.replicate cap .uninit⟩

/-- node.rs:261-274 `raw_push_within_capacity`. -/
def rawPush (h : Heap) (k : Kind) (a : Nat) (value : Cell) : R Heap := do
  let n ← unwrapU (h.node a)
  if n.kind ≠ k then .error .ub
  else
    let cells ← setU n.cells n.len value
    let len ← if n.len + 1 < 256 then Except.ok (n.len + 1) else .error .panic
    return h.put a { n with len := len, cells := cells }

/-- node.rs:277-292 `raw_finalize`, with its `debug_assert!`. -/
def rawFinalize (h : Heap) (k : Kind) (a : Nat) (emptyChild : Cell) : R Heap := do
  let n ← unwrapU (h.node a)
  if n.kind ≠ k then .error .ub
  else
    let cells ← setU n.cells n.len emptyChild
    let len ← if n.len + 1 < 256 then Except.ok (n.len + 1) else .error .panic
    if len ≤ n.cap then return h.put a { n with len := len, cells := cells }
    else .error .panic

/-- node.rs:211-237 `from_parts`: `len` is the number of children, without the sentinel. -/
def fromParts (h : Heap) (mask : Word) (childs : List Cell) (emptyChild : Cell) : Heap × Nat :=
  h.alloc ⟨.branch, mask, (childs.length + 1) % 256, childs.length % 256, childs ++ [emptyChild]⟩

/-- The mutable state of the construction: the nodes made so far, the source's cursor
(from.rs:154) and the captured vectors of `push_fn` (from.rs:155-165). -/
structure MSt (C α : Type) where
  heap : Heap
  cur : C
  data : List (Option α)
  keys : List Nat

/-- from.rs:160-165 `push_fn`: the new data index, cut to `u32`. -/
def pushData {C α : Type} (st : MSt C α) (key : Nat) (value : α) : MSt C α × Nat :=
  ({ st with data := st.data ++ [some value], keys := st.keys ++ [key] }, st.data.length % 2 ^ 32)

section
variable {S C α : Type}

/-- The closure body of from.rs:40-47. -/
def terminalBody (I : Impl S C α) (s : S) (a keyAcc : Nat) (st : MSt C α) (index : Nat) :
    R (MSt C α) := do
  let data ← I.curDataU st.cur s index
  let key ← addUsize keyAcc index
  let (st, dataIndex) := pushData st key data
  let h ← rawPush st.heap .term a (.idx dataIndex)
  return { st with heap := h }

/-- from.rs:28-50 `make_terminal_node`. -/
def makeTerminalNode (I : Impl S C α) (s : S) (st : MSt C α) (mask : Word) (cap keyAcc : Nat) :
    R (MSt C α × Nat) := do
  let (h, a) := rawNew st.heap .term cap mask
  let st ← traverseM (terminalBody I s a keyAcc) { st with heap := h } [mask]
  let h ← rawFinalize st.heap .term a (.idx 0)
  return ({ st with heap := h }, a)

/-- from.rs:67-69, 110-116: `count_ones() as u8` and `len + 1`. -/
def capOf (mask : Word) : R Nat :=
  let len := popcount mask % 256
  if len + 1 < 256 then .ok (len + 1) else .error .panic

/-- The closure body of from.rs:77-90; `rec` is the recursive call. -/
def exactBody (D n a keyAcc : Nat) (rec : MSt C α → Nat → Nat → R (MSt C α × Nat))
    (st : MSt C α) (index : Nat) : R (MSt C α) := do
  let b ← blockStart D n index
  let keyAcc ← addUsize keyAcc b
  let (st, child) ← rec st index keyAcc
  let h ← rawPush st.heap .branch a (.ptr (.heap child))
  return { st with heap := h }

/-- from.rs:53-94 `from_exact_sparse_hierarchy` at level `n`; `left` is the number of levels below
(`n + left + 1 = D`). The source's mask has one word. -/
def fromExact (I : Impl S C α) (s : S) : (left : Nat) → MSt C α → (index keyAcc : Nat) →
    R (MSt C α × Nat)
  | 0, st, index, keyAcc => do
    if I.exact = true then
      let (m, c) ← I.selectU st.cur s (I.D - 1) index
      let mask ← getU m 0
      let cap ← capOf mask
      makeTerminalNode I s { st with cur := c } mask cap keyAcc
    else .error .panic
  | left + 1, st, index, keyAcc => do
    if I.exact = true then
      let n := I.D - 1 - (left + 1)
      let (m, c) ← I.selectU st.cur s n index
      let mask ← getU m 0
      let cap ← capOf mask
      let (h, a) := rawNew st.heap .branch cap mask
      let st ← traverseM (exactBody I.D n a keyAcc (fromExact I s left))
        { st with heap := h, cur := c } [mask]
      let e ← emptyNode (n + 1) I.D
      let h ← rawFinalize st.heap .branch a (.ptr e)
      return ({ st with heap := h }, a)
    else .error .panic

/-- Local variables of from.rs:121-131: `node_mask` and `childs`. -/
structure SSt (C α : Type) where
  st : MSt C α
  nodeMask : Word
  childs : List Cell

/-- The closure body of from.rs:124-131. `push_unchecked` beyond 64 elements is undefined
behaviour; `set_bit` of a one-word mask is `set_bit_unchecked` (bit_block.rs:29-37). -/
def sparseBody (D n keyAcc : Nat) (rec : MSt C α → Nat → Nat → R (MSt C α × Option Nat))
    (v : SSt C α) (index : Nat) : R (SSt C α) := do
  let b ← blockStart D n index
  let keyAcc ← addUsize keyAcc b
  let (st, child) ← rec v.st index keyAcc
  match child with
  | some c =>
    let (_, nodeMask) ← setBitUnchecked true v.nodeMask index
    if v.childs.length < 64 then
      return ⟨st, nodeMask, v.childs ++ [.ptr (.heap c)]⟩
    else .error .ub
  | none => return { v with st := st }

/-- from.rs:97-137 `from_sparse_hierarchy` at level `n = D - 1 - left`. -/
def fromSparse (I : Impl S C α) (s : S) : (left : Nat) → MSt C α → (index keyAcc : Nat) →
    R (MSt C α × Option Nat)
  | 0, st, index, keyAcc => do
    let (m, c) ← I.selectU st.cur s (I.D - 1) index
    let mask ← getU m 0
    let cap ← capOf mask
    let (st, a) ← makeTerminalNode I s { st with cur := c } mask cap keyAcc
    return (st, some a)
  | left + 1, st, index, keyAcc => do
    let n := I.D - 1 - (left + 1)
    let (m, c) ← I.selectU st.cur s n index
    let mask ← getU m 0
    let v ← traverseM (sparseBody I.D n keyAcc (fromSparse I s left))
      ⟨{ st with cur := c }, 0, []⟩ [mask]
    if v.childs.isEmpty then return (v.st, none)
    else
      let e ← emptyNode (n + 1) I.D
      let (h, a) := fromParts v.st.heap v.nodeMask v.childs (.ptr e)
      return ({ v.st with heap := h }, some a)

/-- from.rs:169-178: the root. -/
def fromRoot (I : Impl S C α) (s : S) (st : MSt C α) : R (MSt C α × Nat) := do
  if I.exact = true then fromExact I s (I.D - 1) st 0 0
  else
    let (st, a) ← fromSparse I s (I.D - 1) st 0 0
    let a ← unwrapU a
    return (st, a)

/-- from.rs:153-181 `FromHibitTree::from_sparse_hierarchy`, called by
hibit_tree.rs:224-229 `materialize`. -/
def materialize (I : Impl S C α) (s : S) : R (DT α) := do
  let cur ← I.new s
  let (st, a) ← fromRoot I s ⟨⟨fun _ => none, 0⟩, cur, [none], [usizeMod - 1]⟩
  return ⟨st.heap, .heap a, st.data, st.keys⟩

end

end Hibit.Dense
