import Verif.Builds.Le
import Verif.Props.Bits
/-! # DenseTree and SparseTree in every build -/
namespace Hibit.Build
open Hibit

theorem sub_le {B : Build} {m a b : Nat} (h : b ≤ a) : B.sub m a b = .ok (a - b) := by
  unfold sub; rw [if_pos h]

theorem add_ok {B : Build} {m a b : Nat} (h : a + b < m) : B.add m a b = .ok (a + b) := by
  unfold add; rw [if_pos h]

theorem mul_ok {B : Build} {m a b : Nat} (h : a * b < m) : B.mul m a b = .ok (a * b) := by
  unfold mul; rw [if_pos h]

theorem debugAssert_ok {B : Build} {p : Prop} [Decidable p] (h : p) : B.debugAssert (decide p) = .ok () := by
  unfold debugAssert; rw [if_pos (by simpa using h)]

namespace Dense
open Hibit.Dense
variable {B : Build} {α : Type}

theorem denseIndex_le (mask : Word) (i : Nat) : Le (Hibit.Dense.denseIndex mask i) (denseIndex B mask i) := by
  unfold denseIndex
  by_cases hb : B.bmi2 = true
  · simp only [hb, if_true]
    intro r hr
    have hi : i < 64 := by
      obtain ⟨m, hm, -⟩ := bind_inv hr
      unfold shlP at hm
      split at hm
      · assumption
      · cases hm
    rw [← hr]
    rw [(Props.C10_rank mask hi).1, (Props.C10_rank mask hi).2]
  · simp only [hb]
    exact .bind (shl_le _ _) fun _ _ => .refl _

theorem getChild_le (h : Heap) (p : Ptr) (i : Nat) : Le (Hibit.Dense.getChild h p i) (getChild B h p i) :=
  .bind_same fun _ _ => .bind (denseIndex_le _ _) fun _ _ => .refl _

theorem nodeNew_le (h : Heap) (k : Kind) (cap : Nat) (c : Cell) :
    Le (Hibit.Dense.nodeNew h k cap c) (nodeNew B h k cap c) := by
  unfold Hibit.Dense.nodeNew nodeNew
  by_cases hc : cap ≥ 1
  · rw [if_pos hc, if_pos hc, debugAssert_ok hc]; exact .refl _
  · rw [if_neg hc]; exact .error

theorem nodeGrow_le {h : Heap} (k : Kind) {a : Nat} {n : Node} (hn : h.node a = some n) :
    Le (Hibit.Dense.nodeGrow h k a n) (nodeGrow B h k a n) := by
  unfold Hibit.Dense.nodeGrow nodeGrow
  refine .ite (fun _ => ?_) (fun _ => .refl _)
  by_cases hc : n.cap * 2 < 256
  · rw [if_pos hc, mul_ok hc]
    simp only [bind_ok]
    refine .bind_same fun h' hh => ?_
    have hlen : n.cells.length = n.cap := by
      unfold Heap.dealloc at hh
      rw [hn] at hh
      simp only [unwrapU, bind_ok] at hh
      split at hh
      · next e => exact e.2
      · cases hh
    rw [List.take_of_length_le (by simp; omega)]
    exact .refl _
  · rw [if_neg hc]; exact .error

theorem nodeInsert_le (h : Heap) (k : Kind) (p : Ptr) (i : Nat) (c : Cell) :
    Le (Hibit.Dense.nodeInsert h k p i c) (nodeInsert B h k p i c) := by
  refine .bind_same fun an hd => ?_
  obtain ⟨a, n⟩ := an
  have hn : h.node a = some n := by
    cases p with
    | stat _ => cases hd
    | heap b =>
      obtain ⟨m, h1, h2⟩ := bind_inv hd
      cases h2
      exact unwrapU_inv h1
  refine .ite (fun _ => .refl _) (fun _ => ?_)
  refine .bind (nodeGrow_le k hn) fun g _ => .bind (setBitUnchecked_le _ _ _) fun q _ =>
    .bind (denseIndex_le _ _) fun d _ => ?_
  by_cases hd : d ≤ g.2.2.len
  · rw [sub_le hd]
    simp only [if_pos hd]
    refine .bind_same fun _ _ => .bind_same fun _ _ => .bind_same fun _ _ => ?_
    by_cases hl : g.2.2.len + 1 < 256
    · rw [add_ok hl]
      simp only [if_pos hl]
      exact .refl _
    · simp only [if_neg hl]; exact .error
  · simp only [if_neg hd]; exact .error

theorem nodeRemove_le (h : Heap) (k : Kind) (p : Ptr) (i : Nat) :
    Le (Hibit.Dense.nodeRemove h k p i) (nodeRemove B h k p i) := by
  refine .bind_same fun an hd => ?_
  refine .ite (fun _ => .refl _) (fun _ => ?_)
  refine .bind (denseIndex_le _ _) fun d _ => .bind (setBitUnchecked_le _ _ _) fun q _ => ?_
  by_cases hd : d + 1 ≤ an.2.len
  · rw [sub_le (by omega : d ≤ an.2.len), sub_le (by omega : 1 ≤ an.2.len)]
    simp only [if_pos hd, bind_ok]
    rw [sub_le (by omega : 1 ≤ an.2.len - d)]
    exact .refl _
  · simp only [if_neg hd]; exact .error

theorem setChild_le (h : Heap) (k : Kind) (p : Ptr) (i : Nat) (c : Cell) :
    Le (Hibit.Dense.setChild h k p i c) (setChild B h k p i c) :=
  .bind_same fun _ _ => .ite (fun _ => .refl _) (fun _ => .bind (denseIndex_le _ _) fun _ _ => .refl _)

theorem default_le (D : Nat) : Le (Hibit.Dense.default α D) (default B α D) := by
  unfold Hibit.Dense.default default
  exact .ite (fun _ => .bind (nodeNew_le _ _ _ _) fun _ _ => .refl _)
    (fun _ => .bind_same fun _ _ => .bind (nodeNew_le _ _ _ _) fun _ _ => .refl _)

theorem insertStep_le (D : Nat) (li : List Nat) (w : Walk) (n : Nat) :
    Le (Hibit.Dense.insertStep D li w n) (insertStep B D li w n) := by
  refine .bind_same fun i _ => .bind_same fun p _ => .bind_same fun nd _ => .bind (getBitUnchecked_le _ _) fun c _ => ?_
  refine .ite (fun _ => .bind_same fun _ _ => .bind (denseIndex_le _ _) fun _ _ => .refl _) (fun _ => ?_)
  refine .ite (fun _ => .bind (nodeNew_le _ _ _ _) fun _ _ => .bind (nodeInsert_le _ _ _ _ _) fun _ _ => .refl _)
    (fun _ => .bind_same fun _ _ => .bind (nodeNew_le _ _ _ _) fun _ _ => .bind (nodeInsert_le _ _ _ _ _) fun _ _ => .refl _)

theorem insertWalk_le (D : Nat) (t : DT α) (li : List Nat) :
    Le (Hibit.Dense.insertWalk D t li) (insertWalk B D t li) :=
  .bind (constLoop_le (insertStep_le D li) _ _ _) fun _ _ => .refl _

theorem getOrInsertImpl_le (D : Nat) (t : DT α) (k : Nat) (ins : Bool) (v : α) :
    Le (Hibit.Dense.getOrInsertImpl D t k ins v) (getOrInsertImpl B D t k ins v) := by
  refine .bind (levelIndices_le _ _ _) fun li _ => .bind (insertWalk_le _ _ _) fun w _ => .bind_same fun p _ =>
    .bind_same fun i _ => .bind_same fun n _ => .bind (getBitUnchecked_le _ _) fun c _ => ?_
  refine .ite (fun _ => .bind (getChild_le _ _ _) fun _ _ => .refl _) (fun _ => ?_)
  exact .bind (nodeInsert_le _ _ _ _ _) fun _ _ => .refl _

theorem insert_le (D : Nat) (t : DT α) (k : Nat) (v : α) : Le (Hibit.Dense.insert D t k v) (insert B D t k v) :=
  .bind_same fun _ _ => getOrInsertImpl_le _ _ _ _ _

theorem getOrInsert_le (D : Nat) (t : DT α) (k : Nat) (v : α) :
    Le (Hibit.Dense.getOrInsert D t k v) (getOrInsert B D t k v) :=
  .bind_same fun _ _ => getOrInsertImpl_le _ _ _ _ _

theorem branchLoop_le (h : Heap) (li ns : List Nat) (p : Ptr) :
    Le (Hibit.Dense.branchLoop h li ns p) (branchLoop B h li ns p) := by
  induction ns generalizing p with
  | nil => exact .refl _
  | cons n ns ih =>
    exact .bind_same fun _ _ => .bind (getChild_le _ _ _) fun _ _ => .bind_same fun _ _ => .bind (ih _) fun _ _ => .refl _

theorem terminalLoop_le (h : Heap) (li ns : List Nat) (p : Ptr) :
    Le (Hibit.Dense.terminalLoop h li ns p) (terminalLoop B h li ns p) := by
  induction ns generalizing p with
  | nil => exact .refl _
  | cons n ns ih => exact .bind_same fun _ _ => .bind (getChild_le _ _ _) fun _ _ => .bind_same fun _ _ => ih _

theorem getTerminalNode_le (D : Nat) (h : Heap) (r : Ptr) (li : List Nat) :
    Le (Hibit.Dense.getTerminalNode D h r li) (getTerminalNode B D h r li) :=
  .bind (terminalLoop_le _ _ _ _) fun _ _ => .refl _

theorem climbStep_le (r : Ptr) (br : List Ptr) (li : List Nat) (h : Heap) (n : Nat) :
    Le (Hibit.Dense.climbStep r br li h n) (climbStep B r br li h n) := by
  refine .ite (fun _ => .bind_same fun _ _ => .bind_same fun _ _ => .bind (nodeRemove_le _ _ _ _) fun _ _ => .refl _)
    (fun _ => .bind_same fun _ _ => .bind_same fun _ _ => .bind (nodeRemove_le _ _ _ _) fun _ _ => .refl _)

theorem removeKey_le (D : Nat) (t : DT α) (k d : Nat) : Le (Hibit.Dense.removeKey D t k d) (removeKey B D t k d) := by
  refine .bind_same fun _ _ => .ite (fun _ => .bind_same fun _ _ => .bind (levelIndices_le _ _ _) fun _ _ =>
    .bind (getTerminalNode_le _ _ _ _) fun _ _ => .bind (setChild_le _ _ _ _ _) fun _ _ => .refl _) (fun _ => .refl _)

theorem removeCell_le (D : Nat) (t : DT α) (li : List Nat) (br : List Ptr) (p : Ptr) (i : Nat) :
    Le (Hibit.Dense.removeCell D t li br p i) (removeCell B D t li br p i) := by
  refine .bind (nodeRemove_le _ _ _ _) fun _ _ => .bind_same fun _ _ => .ite (fun _ => .bind_same fun _ _ =>
    .bind (constLoopRev_le (climbStep_le _ _ _) _ _ _) fun _ _ => .refl _) (fun _ => .refl _)

theorem remove_le (D : Nat) (t : DT α) (k : Nat) : Le (Hibit.Dense.remove D t k) (remove B D t k) := by
  refine .bind_same fun _ _ => .bind (levelIndices_le _ _ _) fun _ _ => .bind (branchLoop_le _ _ _ _) fun _ _ =>
    .bind_same fun _ _ => .bind_same fun _ _ => .bind (getChild_le _ _ _) fun _ _ => .bind_same fun _ _ =>
    .bind_same fun _ _ => .ite (fun _ => ?_) (fun _ => .refl _)
  exact .bind (removeCell_le _ _ _ _ _ _) fun _ _ => .bind (removeKey_le _ _ _ _) fun _ _ => .refl _

theorem dropNodeWithChilds_le (r : Nat) (h : Heap) (p : Ptr) :
    Le (Hibit.Dense.dropNodeWithChilds r h p) (dropNodeWithChilds B r h p) := by
  induction r generalizing h p with
  | zero => exact .refl _
  | succ r ih =>
    cases r with
    | zero => exact .refl _
    | succ r =>
      simp only [Hibit.Dense.dropNodeWithChilds, dropNodeWithChilds]
      refine .bind_same fun _ _ => .bind (foldlM_le (fun _ _ => ?_) _ _) fun _ _ => .refl _
      exact .bind (getChild_le _ _ _) fun _ _ => .bind_same fun _ _ => ih _ _

theorem dropImpl_le (D : Nat) (t : DT α) : Le (Hibit.Dense.dropImpl D t) (dropImpl B D t) := by
  unfold Hibit.Dense.dropImpl dropImpl
  by_cases h : 1 ≤ t.data.length
  · rw [if_pos h, sub_le h]
    simp only [bind_ok]
    rw [if_pos (by omega), List.take_of_length_le (by simp)]
    exact .bind_same fun _ _ => .bind (dropNodeWithChilds_le _ _ _) fun _ _ => .refl _
  · rw [if_neg h]; exact .error

theorem treeData_le (D : Nat) (t : DT α) (k : Nat) (li : List Nat) :
    Le (Hibit.Dense.treeData D t k li) (treeData B D t k li) :=
  .bind (getTerminalNode_le _ _ _ _) fun _ _ => .bind (getChild_le _ _ _) fun _ _ => .refl _

theorem curSelect_le (D : Nat) (c : Cursor) (t : DT α) (n i : Nat) :
    Le (Hibit.Dense.curSelect D c t n i) (curSelect B D c t n i) :=
  .ite (fun _ => .refl _) (fun _ => .bind_same fun _ _ => .bind_same fun _ _ => .bind (getBitUnchecked_le _ _) fun _ _ =>
    .bind (getChild_le _ _ _) fun _ _ => .refl _)

theorem curSelectU_le (c : Cursor) (t : DT α) (n i : Nat) :
    Le (Hibit.Dense.curSelectU c t n i) (curSelectU B c t n i) :=
  .ite (fun _ => .refl _) (fun _ => .bind_same fun _ _ => .bind (getChild_le _ _ _) fun _ _ => .refl _)

theorem curData_le (D : Nat) (c : Cursor) (t : DT α) (i : Nat) :
    Le (Hibit.Dense.curData D c t i) (curData B D c t i) :=
  .bind_same fun _ _ => .bind_same fun _ _ => .bind (getBitUnchecked_le _ _) fun _ _ =>
    .ite (fun _ => .bind (getChild_le _ _ _) fun _ _ => .refl _) (fun _ => .refl _)

theorem curDataU_le (D : Nat) (c : Cursor) (t : DT α) (i : Nat) :
    Le (Hibit.Dense.curDataU D c t i) (curDataU B D c t i) :=
  .bind_same fun _ _ => .bind (getChild_le _ _ _) fun _ _ => .refl _

theorem impl_le (α : Type) (D : Nat) : ImplLe (Hibit.Dense.impl α D) (impl B α D) where
  N := rfl
  D := rfl
  exact := rfl
  data := fun _ _ _ _ => treeData_le _ _ _ _
  dataU := fun _ _ _ _ => .bind (treeData_le _ _ _ _) fun _ _ => .refl _
  new := fun _ => .refl _
  select := curSelect_le D
  selectU := curSelectU_le
  curData := curData_le D
  curDataU := curDataU_le D

theorem step_le (D : Nat) (t : DT α) (op : Op α) : Le (Hibit.Dense.step D t op) (step B D t op) := by
  cases op with
  | insert k v => exact .bind (insert_le _ _ _ _) fun _ _ => .refl _
  | getOrInsert k d g => exact .bind (getOrInsert_le _ _ _ _) fun _ _ => .refl _
  | remove k => exact .bind (remove_le _ _ _) fun _ _ => .refl _
  | get k => exact .bind (get_le (impl_le α D) _ _) fun _ _ => .refl _
  | mutValues g => exact .refl _

theorem run_le (D : Nat) (ops : List (Op α)) (t : DT α) : Le (Hibit.Dense.run D t ops) (run B D t ops) := by
  induction ops generalizing t with
  | nil => exact .refl _
  | cons op ops ih => exact .bind (step_le _ _ _) fun _ _ => .bind (ih _) fun _ _ => .refl _

end Dense

namespace Sparse
open Hibit.Sparse
variable {B : Build} {α : Type}

theorem blockInsert_le (b : Block) (n i x : Nat) : Le (b.insert n i x) (blockInsert B b n i x) :=
  .bind (setBit_le _ _ _) fun _ _ => .refl _

theorem blockRemove_le (b : Block) (i : Nat) : Le (b.remove i) (blockRemove B b i) :=
  .bind (setBit_le _ _ _) fun _ _ => .refl _

theorem fetchBlockIndices_eq {D : Nat} (t : ST α) {li : List Nat} (h : li.length = D) :
    fetchBlockIndices B D t li = Hibit.Sparse.fetchBlockIndices t li := by
  unfold fetchBlockIndices
  rw [debugAssert_ok h]
  rfl

theorem fetchBlockIndex_eq {D : Nat} (t : ST α) {li : List Nat} (h : li.length = D) :
    fetchBlockIndex B D t li = Hibit.Sparse.fetchBlockIndex t li := by
  unfold fetchBlockIndex
  rw [fetchBlockIndices_eq t h]
  rfl

theorem removeLoop_le (li lbi : List Nat) (n : Nat) (lv : List Level) :
    Le (Hibit.Sparse.removeLoop li lbi n lv) (removeLoop B li lbi n lv) := by
  induction n generalizing lv with
  | zero => exact .refl _
  | succ n ih =>
    refine .bind_same fun L _ => ?_
    have key : ∀ bi, Le
        (do
          let b ← getU L.blocks bi
          let inner ← getP li n
          let b ← b.remove inner
          let blocks ← setU L.blocks bi b
          let L := { L with blocks := blocks }
          if b.isEmpty then
            let L ← if n ≠ 0 then L.removeEmpty bi else pure L
            Hibit.Sparse.removeLoop li lbi n (lv.set n L)
          else return lv.set n L)
        (do
          let b ← getU L.blocks bi
          let inner ← getP li n
          let b ← blockRemove B b inner
          let blocks ← setU L.blocks bi b
          let L := { L with blocks := blocks }
          if b.isEmpty then
            let L ← if n ≠ 0 then L.removeEmpty bi else pure L
            removeLoop B li lbi n (lv.set n L)
          else return lv.set n L) := by
      intro bi
      refine .bind_same fun _ _ => .bind_same fun _ _ => .bind (blockRemove_le _ _) fun _ _ => .bind_same fun _ _ => ?_
      exact .ite (fun _ => .ite (fun _ => .bind_same fun _ _ => ih _) (fun _ => .bind_same fun _ _ => ih _))
        (fun _ => .refl _)
    exact .ite (fun _ => .bind_same fun _ _ => key _) (fun _ => .bind_same fun _ _ => key _)

theorem remove_le (N D : Nat) (t : ST α) (k : Nat) : Le (Hibit.Sparse.remove N D t k) (remove B N D t k) := by
  refine .bind_same fun _ _ => .bind (levelIndices_le _ _ _) fun li hli => ?_
  rw [fetchBlockIndices_eq t (levelIndices_length hli)]
  refine .bind_same fun _ _ => .ite (fun _ => .refl _) (fun _ => ?_)
  exact .bind (removeLoop_le _ _ _ _) fun _ _ => .refl _

theorem insertStep_le (N : Nat) (li : List Nat) (st : List Level × Nat) (n : Nat) :
    Le (Hibit.Sparse.insertStep N li st n) (insertStep B N li st n) := by
  refine .bind_same fun _ _ => .bind_same fun _ _ => .bind_same fun _ _ => .bind_same fun _ _ =>
    .ite (fun _ => ?_) (fun _ => .refl _)
  exact .bind_same fun _ _ => .bind_same fun _ _ => .bind_same fun _ _ => .bind_same fun _ _ =>
    .bind (blockInsert_le _ _ _ _) fun _ _ => .refl _

theorem getOrInsertImpl_le (N D : Nat) (t : ST α) (k : Nat) (ins : Bool) (v : α) :
    Le (Hibit.Sparse.getOrInsertImpl N D t k ins v) (getOrInsertImpl B N D t k ins v) := by
  refine .bind (levelIndices_le _ _ _) fun li _ => .bind_same fun _ _ =>
    .bind (constLoop_le (insertStep_le N li) _ _ _) fun _ _ => .bind_same fun _ _ => .bind_same fun _ _ =>
    .bind_same fun _ _ => .ite (fun _ => ?_) (fun _ => .refl _)
  exact .bind (blockInsert_le _ _ _ _) fun _ _ => .refl _

theorem insert_le (N D : Nat) (t : ST α) (k : Nat) (v : α) : Le (Hibit.Sparse.insert N D t k v) (insert B N D t k v) :=
  .bind_same fun _ _ => getOrInsertImpl_le _ _ _ _ _ _

theorem getOrInsert_le (N D : Nat) (t : ST α) (k : Nat) (v : α) :
    Le (Hibit.Sparse.getOrInsert N D t k v) (getOrInsert B N D t k v) :=
  .bind_same fun _ _ => getOrInsertImpl_le _ _ _ _ _ _

theorem getMut_le (N D : Nat) (t : ST α) (k : Nat) : Le (Hibit.Sparse.getMut N D t k) (getMut B N D t k) := by
  refine .bind_same fun _ _ => .bind (levelIndices_le _ _ _) fun li hli => ?_
  rw [fetchBlockIndex_eq t (levelIndices_length hli)]
  exact .refl _

theorem getOrDefault_le (N D : Nat) (t : ST α) (k : Nat) :
    Le (Hibit.Sparse.getOrDefault N D t k) (getOrDefault B N D t k) := by
  refine .bind_same fun _ _ => .bind (levelIndices_le _ _ _) fun li hli => ?_
  rw [fetchBlockIndex_eq t (levelIndices_length hli)]
  exact .refl _

theorem dropImpl_le (required : Bool) (t : ST α) : Le (Hibit.Sparse.dropImpl required t) (dropImpl B required t) := by
  unfold Hibit.Sparse.dropImpl dropImpl
  generalize (if required = true then 0 else 1) = skip
  by_cases h : skip ≤ t.values.length
  · simp only [if_pos h, sub_le h, bind_ok]
    rw [if_pos (by omega), List.take_of_length_le (by simp)]
    exact .refl _
  · simp only [if_neg h]; exact .error

theorem treeData_eq {D : Nat} (t : ST α) {li : List Nat} (h : li.length = D) :
    treeData B D t li = Hibit.Sparse.treeData t li := by
  unfold treeData
  rw [fetchBlockIndex_eq t h]
  rfl

theorem impl_le (α : Type) (N D : Nat) : ImplLe (Hibit.Sparse.impl α N D) (impl B α N D) where
  N := rfl
  D := rfl
  exact := rfl
  data := fun _ _ _ hl => .of_eq (treeData_eq _ hl).symm
  dataU := fun t _ li hl => by
    show Le (Hibit.Sparse.treeData t li >>= _) (treeData B D t li >>= _)
    rw [treeData_eq (D := D) t hl]; exact .refl _
  new := fun _ => .refl _
  select := fun _ _ _ _ => .refl _
  selectU := fun _ _ _ _ => .refl _
  curData := fun _ _ _ => .refl _
  curDataU := fun _ _ _ => .refl _

theorem step_le (N D : Nat) (t : ST α) (op : Op α) : Le (Hibit.Sparse.step N D t op) (step B N D t op) := by
  cases op with
  | insert k v => exact .bind (insert_le _ _ _ _ _) fun _ _ => .refl _
  | getOrInsert k d g => exact .bind (getOrInsert_le _ _ _ _ _) fun _ _ => .refl _
  | remove k => exact .bind (remove_le _ _ _ _) fun _ _ => .refl _
  | get k => exact .bind (get_le (impl_le α N D) _ _) fun _ _ => .refl _
  | getMut k g => exact .bind (getMut_le _ _ _ _) fun _ _ => .refl _
  | getOrDefault k => exact .bind (getOrDefault_le _ _ _ _) fun _ _ => .refl _
  | mutValues g => exact .refl _

theorem run_le (N D : Nat) (ops : List (Op α)) (t : ST α) : Le (Hibit.Sparse.run N D t ops) (run B N D t ops) := by
  induction ops generalizing t with
  | nil => exact .refl _
  | cons op ops ih => exact .bind (step_le _ _ _ _) fun _ _ => .bind (ih _) fun _ _ => .refl _

end Sparse
end Hibit.Build
