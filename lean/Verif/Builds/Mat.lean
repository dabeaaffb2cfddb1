import Verif.TreeOf
import Verif.Builds.Trees
import Verif.Dense.MatLemmas
/-!
# `materialize` in every build, and the contract of a tree in every build
-/
namespace Hibit
namespace Build.Dense
open Hibit.Dense
variable (B : Build)

/-- from.rs:19-25 `block_start`. -/
def blockStart (D n index : Nat) : R Nat := do
  let s ← B.shAmt (ilog2w 1 * (D - n - 1))
  return index * 2 ^ s % usizeMod

/-- node.rs:261-274 `raw_push_within_capacity`. -/
def rawPush (h : Heap) (k : Kind) (a : Nat) (value : Cell) : R Heap := do
  let n ← unwrapU (h.node a)
  if n.kind ≠ k then .error .ub
  else
    let cells ← setU n.cells n.len value
    let len ← B.add 256 n.len 1
    return h.put a { n with len := len, cells := cells }

/-- node.rs:277-292 `raw_finalize`, with its `debug_assert!`. -/
def rawFinalize (h : Heap) (k : Kind) (a : Nat) (emptyChild : Cell) : R Heap := do
  let n ← unwrapU (h.node a)
  if n.kind ≠ k then .error .ub
  else
    let cells ← setU n.cells n.len emptyChild
    let len ← B.add 256 n.len 1
    B.debugAssert (decide (len ≤ n.cap))
    return h.put a { n with len := len, cells := cells }

section
variable {S C α : Type}

/-- The closure body of from.rs:40-47. -/
def terminalBody (I : Impl S C α) (s : S) (a keyAcc : Nat) (st : MSt C α) (index : Nat) :
    R (MSt C α) := do
  let data ← I.curDataU st.cur s index
  let key ← B.add usizeMod keyAcc index
  let (st, dataIndex) := pushData st key data
  let h ← rawPush B st.heap .term a (.idx dataIndex)
  return { st with heap := h }

/-- from.rs:28-50 `make_terminal_node`. -/
def makeTerminalNode (I : Impl S C α) (s : S) (st : MSt C α) (mask : Word) (cap keyAcc : Nat) :
    R (MSt C α × Nat) := do
  let (h, a) := rawNew st.heap .term cap mask
  let st ← traverseM (terminalBody B I s a keyAcc) { st with heap := h } [mask]
  let h ← rawFinalize B st.heap .term a (.idx 0)
  return ({ st with heap := h }, a)

/-- from.rs:67-69, 110-116: `count_ones() as u8` and `len + 1`. -/
def capOf (mask : Word) : R Nat := B.add 256 (popcount mask % 256) 1

/-- The closure body of from.rs:77-90. -/
def exactBody (D n a keyAcc : Nat) (rec : MSt C α → Nat → Nat → R (MSt C α × Nat))
    (st : MSt C α) (index : Nat) : R (MSt C α) := do
  let b ← blockStart B D n index
  let keyAcc ← B.add usizeMod keyAcc b
  let (st, child) ← rec st index keyAcc
  let h ← rawPush B st.heap .branch a (.ptr (.heap child))
  return { st with heap := h }

/-- from.rs:53-94 `from_exact_sparse_hierarchy`; line 66 is an `assert!` in every build. -/
def fromExact (I : Impl S C α) (s : S) : (left : Nat) → MSt C α → (index keyAcc : Nat) →
    R (MSt C α × Nat)
  | 0, st, index, keyAcc => do
    if I.exact = true then
      let (m, c) ← I.selectU st.cur s (I.D - 1) index
      let mask ← getU m 0
      let cap ← capOf B mask
      makeTerminalNode B I s { st with cur := c } mask cap keyAcc
    else .error .panic
  | left + 1, st, index, keyAcc => do
    if I.exact = true then
      let n := I.D - 1 - (left + 1)
      let (m, c) ← I.selectU st.cur s n index
      let mask ← getU m 0
      let cap ← capOf B mask
      let (h, a) := rawNew st.heap .branch cap mask
      let st ← traverseM (exactBody B I.D n a keyAcc (fromExact I s left))
        { st with heap := h, cur := c } [mask]
      let e ← emptyNode (n + 1) I.D
      let h ← rawFinalize B st.heap .branch a (.ptr e)
      return ({ st with heap := h }, a)
    else .error .panic

/-- The closure body of from.rs:124-131. -/
def sparseBody (D n keyAcc : Nat) (rec : MSt C α → Nat → Nat → R (MSt C α × Option Nat))
    (v : SSt C α) (index : Nat) : R (SSt C α) := do
  let b ← blockStart B D n index
  let keyAcc ← B.add usizeMod keyAcc b
  let (st, child) ← rec v.st index keyAcc
  match child with
  | some c =>
    let (_, nodeMask) ← B.setBitUnchecked true v.nodeMask index
    if v.childs.length < 64 then
      return ⟨st, nodeMask, v.childs ++ [.ptr (.heap c)]⟩
    else .error .ub
  | none => return { v with st := st }

/-- from.rs:97-137 `from_sparse_hierarchy`. -/
def fromSparse (I : Impl S C α) (s : S) : (left : Nat) → MSt C α → (index keyAcc : Nat) →
    R (MSt C α × Option Nat)
  | 0, st, index, keyAcc => do
    let (m, c) ← I.selectU st.cur s (I.D - 1) index
    let mask ← getU m 0
    let cap ← capOf B mask
    let (st, a) ← makeTerminalNode B I s { st with cur := c } mask cap keyAcc
    return (st, some a)
  | left + 1, st, index, keyAcc => do
    let n := I.D - 1 - (left + 1)
    let (m, c) ← I.selectU st.cur s n index
    let mask ← getU m 0
    let v ← traverseM (sparseBody B I.D n keyAcc (fromSparse I s left))
      ⟨{ st with cur := c }, 0, []⟩ [mask]
    if v.childs.isEmpty then return (v.st, none)
    else
      let e ← emptyNode (n + 1) I.D
      let (h, a) := fromParts v.st.heap v.nodeMask v.childs (.ptr e)
      return ({ v.st with heap := h }, some a)

/-- from.rs:169-178: the root. -/
def fromRoot (I : Impl S C α) (s : S) (st : MSt C α) : R (MSt C α × Nat) := do
  if I.exact = true then fromExact B I s (I.D - 1) st 0 0
  else
    let (st, a) ← fromSparse B I s (I.D - 1) st 0 0
    let a ← unwrapU a
    return (st, a)

/-- from.rs:153-181, hibit_tree.rs:224-229 `materialize`. -/
def materialize (I : Impl S C α) (s : S) : R (DT α) := do
  let cur ← I.new s
  let (st, a) ← fromRoot B I s ⟨⟨fun _ => none, 0⟩, cur, [none], [usizeMod - 1]⟩
  return ⟨st.heap, .heap a, st.data, st.keys⟩

end

/-! ## Every build does what the checked portable build does -/
variable {B}

theorem blockStart_le (D n i : Nat) : Le (Hibit.Dense.blockStart D n i) (blockStart B D n i) := by
  unfold Hibit.Dense.blockStart blockStart shlUsize shAmt
  generalize ilog2w 1 * (D - n - 1) = s
  by_cases h : s < 64
  · rw [if_pos h, if_pos h]; exact .refl _
  · rw [if_neg h]; exact .error

theorem addUsize_le (a b : Nat) : Le (addUsize a b) (B.add usizeMod a b) := by
  unfold addUsize add
  exact .ite (fun _ => .refl _) (fun _ => .error)

theorem rawPush_le (h : Heap) (k : Kind) (a : Nat) (c : Cell) :
    Le (Hibit.Dense.rawPush h k a c) (rawPush B h k a c) := by
  refine .bind_same fun n _ => .ite (fun _ => .refl _) (fun _ => .bind_same fun _ _ => ?_)
  by_cases hl : n.len + 1 < 256
  · rw [if_pos hl, add_ok hl]; exact .refl _
  · rw [if_neg hl]; exact .error

theorem rawFinalize_le (h : Heap) (k : Kind) (a : Nat) (c : Cell) :
    Le (Hibit.Dense.rawFinalize h k a c) (rawFinalize B h k a c) := by
  refine .bind_same fun n _ => .ite (fun _ => .refl _) (fun _ => .bind_same fun cells _ => ?_)
  by_cases hl : n.len + 1 < 256
  · simp only [if_pos hl, add_ok hl, bind_ok]
    by_cases hc : n.len + 1 ≤ n.cap
    · rw [if_pos hc, debugAssert_ok hc]; exact .refl _
    · rw [if_neg hc]; exact .error
  · simp only [if_neg hl]; exact .error

theorem capOf_le (m : Word) : Le (Hibit.Dense.capOf m) (capOf B m) := by
  unfold Hibit.Dense.capOf capOf add
  exact .ite (fun _ => .refl _) (fun _ => .error)

theorem traverseM_le {σ : Type} {f f' : σ → Nat → R σ} (h : ∀ s i, Le (f s i) (f' s i)) (s : σ) (m : Mask) :
    Le (traverseM f s m) (traverseM f' s m) := by
  rw [traverseM_eq, traverseM_eq]; exact foldlM_le h _ _

section
variable {S C α : Type} {I I' : Impl S C α} (h : ImplLe I I') (s : S)
include h

theorem terminalBody_le (a keyAcc : Nat) (st : MSt C α) (i : Nat) :
    Le (Hibit.Dense.terminalBody I s a keyAcc st i) (terminalBody B I' s a keyAcc st i) :=
  .bind (h.curDataU _ _ _) fun _ _ => .bind (addUsize_le _ _) fun _ _ => .bind (rawPush_le _ _ _ _) fun _ _ => .refl _

theorem makeTerminalNode_le (st : MSt C α) (mask : Word) (cap keyAcc : Nat) :
    Le (Hibit.Dense.makeTerminalNode I s st mask cap keyAcc) (makeTerminalNode B I' s st mask cap keyAcc) :=
  .bind (traverseM_le (terminalBody_le h s _ _) _ _) fun _ _ => .bind (rawFinalize_le _ _ _ _) fun _ _ => .refl _

omit h in
theorem exactBody_le {rec rec' : MSt C α → Nat → Nat → R (MSt C α × Nat)} (hr : ∀ st i k, Le (rec st i k) (rec' st i k))
    (D n a keyAcc : Nat) (st : MSt C α) (i : Nat) :
    Le (Hibit.Dense.exactBody D n a keyAcc rec st i) (exactBody B D n a keyAcc rec' st i) :=
  .bind (blockStart_le _ _ _) fun _ _ => .bind (addUsize_le _ _) fun _ _ => .bind (hr _ _ _) fun _ _ =>
    .bind (rawPush_le _ _ _ _) fun _ _ => .refl _

theorem fromExact_le (left : Nat) (st : MSt C α) (index keyAcc : Nat) :
    Le (Hibit.Dense.fromExact I s left st index keyAcc) (fromExact B I' s left st index keyAcc) := by
  induction left generalizing st index keyAcc with
  | zero =>
    simp only [Hibit.Dense.fromExact, fromExact, h.exact, h.D]
    refine .ite (fun _ => ?_) (fun _ => .refl _)
    exact .bind (h.selectU _ _ _ _) fun _ _ => .bind_same fun _ _ => .bind (capOf_le _) fun _ _ =>
      makeTerminalNode_le h s _ _ _ _
  | succ left ih =>
    simp only [Hibit.Dense.fromExact, fromExact, h.exact, h.D]
    refine .ite (fun _ => ?_) (fun _ => .refl _)
    exact .bind (h.selectU _ _ _ _) fun _ _ => .bind_same fun _ _ => .bind (capOf_le _) fun _ _ =>
      .bind (traverseM_le (exactBody_le ih _ _ _ _) _ _) fun _ _ => .bind_same fun _ _ =>
      .bind (rawFinalize_le _ _ _ _) fun _ _ => .refl _

omit h in
theorem sparseBody_le {rec rec' : MSt C α → Nat → Nat → R (MSt C α × Option Nat)}
    (hr : ∀ st i k, Le (rec st i k) (rec' st i k)) (D n keyAcc : Nat) (v : SSt C α) (i : Nat) :
    Le (Hibit.Dense.sparseBody D n keyAcc rec v i) (sparseBody B D n keyAcc rec' v i) := by
  refine .bind (blockStart_le _ _ _) fun _ _ => .bind (addUsize_le _ _) fun _ _ => .bind (hr _ _ _) fun p _ => ?_
  obtain ⟨st, o⟩ := p
  cases o with
  | none => exact .refl _
  | some c => exact .bind (setBitUnchecked_le _ _ _) fun _ _ => .refl _

theorem fromSparse_le (left : Nat) (st : MSt C α) (index keyAcc : Nat) :
    Le (Hibit.Dense.fromSparse I s left st index keyAcc) (fromSparse B I' s left st index keyAcc) := by
  induction left generalizing st index keyAcc with
  | zero =>
    simp only [Hibit.Dense.fromSparse, fromSparse, h.D]
    exact .bind (h.selectU _ _ _ _) fun _ _ => .bind_same fun _ _ => .bind (capOf_le _) fun _ _ =>
      .bind (makeTerminalNode_le h s _ _ _ _) fun _ _ => .refl _
  | succ left ih =>
    simp only [Hibit.Dense.fromSparse, fromSparse, h.D]
    exact .bind (h.selectU _ _ _ _) fun _ _ => .bind_same fun _ _ =>
      .bind (traverseM_le (sparseBody_le ih _ _ _) _ _) fun _ _ => .refl _

theorem materialize_le : Le (Hibit.Dense.materialize I s) (materialize B I' s) := by
  refine .bind (h.new _) fun _ _ => .bind ?_ fun _ _ => .refl _
  unfold Hibit.Dense.fromRoot fromRoot
  rw [h.exact, h.D]
  exact .ite (fun _ => fromExact_le h s _ _ _ _) (fun _ => .bind (fromSparse_le h s _ _ _ _) fun _ _ => .refl _)

end
end Build.Dense

namespace Build
section
variable {S C δ : Type} {I I' : Impl S C δ} {s : S}

/-- The trait contract carries over. -/
theorem lawful_of_le (h : ImplLe I I') {T : TreeSpec δ} {K : CursorRel C} (L : Lawful I s T K) : Lawful I' s T K where
  cfg := by rw [h.N, h.D]; exact L.cfg
  wf := by rw [h.N, h.D, h.exact]; exact L.wf
  data_eq p hp hl := by
    rw [h.N] at *; rw [h.D] at hl
    exact h.data _ _ _ hl _ (L.data_eq p hp hl)
  dataU_eq p d hp hl hc := by
    rw [h.N] at *; rw [h.D] at hl
    exact h.dataU _ _ _ hl _ (L.dataU_eq p d hp hl hc)
  new_ok := by
    obtain ⟨c, e, hc⟩ := L.new_ok
    exact ⟨c, h.new _ _ e, hc⟩
  pos_inv := L.pos_inv
  posC_pos := L.posC_pos
  pos_take := L.pos_take
  select_root c i hc hi := by
    obtain ⟨m, c', e, g⟩ := L.select_root c i hc hi
    rw [h.N]; exact ⟨m, c', h.select _ _ _ _ _ e, g⟩
  selectU_root c i hc hi := by
    obtain ⟨m, c', e, g⟩ := L.selectU_root c i hc hi
    rw [h.N]; exact ⟨m, c', h.selectU _ _ _ _ _ e, g⟩
  select_node c p i hc hp hi hl := by
    rw [h.N] at *; rw [h.D] at hl
    obtain ⟨m, c', e, g⟩ := L.select_node c p i hc hp hi hl
    exact ⟨m, c', h.select _ _ _ _ _ e, g⟩
  selectU_node c p i hc hp hi hl hb := by
    rw [h.N] at *; rw [h.D] at hl
    obtain ⟨m, c', e, g⟩ := L.selectU_node c p i hc hp hi hl hb
    exact ⟨m, c', h.selectU _ _ _ _ _ e, g⟩
  curDataU_eq c p i d hc hp hi hl hd := by
    rw [h.N] at *; rw [h.D] at hl
    exact h.curDataU _ _ _ _ (L.curDataU_eq c p i d hc hp hi hl hd)

theorem lawfulC_of_le (h : ImplLe I I') {T : TreeSpec δ} {K : CursorRel C} (L : LawfulC I s T K) : LawfulC I' s T K :=
  { lawful_of_le h L.toLawful with
    curData_eq := fun c p i hc hp hi hl => by
      rw [h.N] at *; rw [h.D] at hl
      exact h.curData _ _ _ _ (L.curData_eq c p i hc hp hi hl) }

theorem isTree_of_le (h : ImplLe I I') {M : Nat → Option δ} (L : IsTree I s M) : IsTree I' s M := by
  obtain ⟨T, K, L, e⟩ := L
  exact ⟨T, K, lawful_of_le h L, by rw [h.N, h.D]; exact e⟩

theorem isTreeC_of_le (h : ImplLe I I') {M : Nat → Option δ} (L : IsTreeC I s M) : IsTreeC I' s M := by
  obtain ⟨T, K, L, e⟩ := L
  exact ⟨T, K, lawfulC_of_le h L, by rw [h.N, h.D]; exact e⟩

end
end Build
end Hibit
