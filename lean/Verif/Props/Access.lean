import Verif.Props.Sparse
import Verif.Props.Dense
/-!
# Property C73: random access reads a fixed number of words

What a call reads is expressed without instrumenting it: the answer is the same in every other state that
agrees on the listed words. `SameAt` (DenseTree: of the listed nodes the mask and one child cell),
`SameCells` (SparseTree: the listed child indices).
-/
namespace Hibit.Props
open Hibit
open Hibit.Dense (DT)

/-! ## DenseTree -/
section Dense
open Hibit.Dense
variable {α : Type}

/-- The heaps agree on the listed (node, child position) pairs: on the node's mask and on that cell. -/
def SameAt (h h' : Heap) (A : List (Nat × Nat)) : Prop :=
  ∀ x ∈ A, (h'.node x.1).map (·.mask) = (h.node x.1).map (·.mask) ∧
    (h'.node x.1).bind (·.cells[x.2]?) = (h.node x.1).bind (·.cells[x.2]?)

/-- `t'` has the root pointer of `t`, and agrees with it on the listed words of the nodes and on position `i`
of the two vectors. -/
structure AgreeD (t t' : DT α) (A : List (Nat × Nat)) (i : Nat) : Prop where
  root : t'.root = t.root
  nodes : SameAt t.heap t'.heap A
  key : t'.keys[i]? = t.keys[i]?
  value : t'.data[i]? = t.data[i]?

theorem SameAt.append {h h' : Heap} {A B : List (Nat × Nat)} (s : SameAt h h' (A ++ B)) :
    SameAt h h' A ∧ SameAt h h' B :=
  ⟨fun x hx => s x (by simp [hx]), fun x hx => s x (by simp [hx])⟩

theorem getU_congr {β : Type} {l l' : List β} {i : Nat} (h : l'[i]? = l[i]?) : Hibit.getU l' i = Hibit.getU l i := by
  unfold Hibit.getU; rw [h]

/-- Reading the mask of the node at `p` gives the same in both heaps (or fails in both). -/
def SameMask (h h' : Heap) (p : Ptr) : Prop :=
  (∃ e, deref h' p = .error e ∧ deref h p = .error e) ∨
  ∃ n' n, deref h' p = .ok n' ∧ deref h p = .ok n ∧ n'.mask = n.mask

theorem sameMask_stat (h h' : Heap) (j : Nat) : SameMask h h' (.stat j) := by
  have e : deref h' (.stat j) = deref h (.stat j) := rfl
  cases hd : deref h (.stat j) with
  | error x => exact .inl ⟨x, e.trans hd, hd⟩
  | ok n => exact .inr ⟨n, n, e.trans hd, hd, rfl⟩

theorem deref_reads (h : Heap) (p : Ptr) :
    ∃ A : List (Nat × Nat), A.length ≤ 1 ∧ ∀ h', SameAt h h' A → SameMask h h' p := by
  cases p with
  | stat j =>
    refine ⟨[], Nat.zero_le _, fun h' _ => ?_⟩
    exact sameMask_stat h h' j
  | heap a =>
    refine ⟨[(a, 0)], Nat.le_refl _, fun h' s => ?_⟩
    have := (s (a, 0) (by simp)).1
    unfold SameMask deref
    cases hn : h.node a <;> cases hn' : h'.node a <;> simp_all [unwrapU]

theorem getChild_reads (h : Heap) (p : Ptr) (i : Nat) :
    ∃ A : List (Nat × Nat), A.length ≤ 1 ∧ ∀ h', SameAt h h' A →
      getChild h' p i = getChild h p i ∧ SameMask h h' p := by
  cases p with
  | stat j =>
    refine ⟨[], Nat.zero_le _, fun h' _ => ⟨rfl, ?_⟩⟩
    exact sameMask_stat h h' j
  | heap a =>
    have key : ∃ d, ∀ h', SameAt h h' [(a, d)] → getChild h' (.heap a) i = getChild h (.heap a) i := by
      unfold getChild deref
      cases hn : h.node a with
      | none =>
        refine ⟨0, fun h' s => ?_⟩
        have := (s (a, 0) (by simp)).1
        simp only [hn] at this
        cases hn' : h'.node a with
        | none => simp only [hn, hn']
        | some n' => rw [hn'] at this; simp at this
      | some n =>
        cases hd : denseIndex n.mask i with
        | error e =>
          refine ⟨0, fun h' s => ?_⟩
          have := (s (a, 0) (by simp)).1
          simp only [hn] at this
          cases hn' : h'.node a with
          | none => rw [hn'] at this; simp at this
          | some n' =>
            rw [hn'] at this
            have hm : n'.mask = n.mask := by simpa using this
            simp only [hn, hn', unwrapU, bind_ok, hm, hd, bind_err]
        | ok d =>
          refine ⟨d, fun h' s => ?_⟩
          have := s (a, d) (by simp)
          simp only [hn] at this
          cases hn' : h'.node a with
          | none => rw [hn'] at this; simp at this
          | some n' =>
            rw [hn'] at this
            have hm : n'.mask = n.mask := by simpa using this.1
            have hc : n'.cells[d]? = n.cells[d]? := by simpa using this.2
            simp only [hn, hn', unwrapU, bind_ok, hm, hd]
            exact getU_congr hc
    obtain ⟨d, hd⟩ := key
    refine ⟨[(a, d)], Nat.le_refl _, fun h' s => ⟨hd h' s, ?_⟩⟩
    have := (s (a, d) (by simp)).1
    unfold SameMask deref
    cases hn : h.node a <;> cases hn' : h'.node a <;> simp_all [unwrapU]

theorem terminalLoop_reads (h : Heap) (li : List Nat) : ∀ (ns : List Nat) (p : Ptr),
    ∃ A : List (Nat × Nat), A.length ≤ ns.length ∧ ∀ h', SameAt h h' A →
      terminalLoop h' li ns p = terminalLoop h li ns p
  | [], p => ⟨[], Nat.le_refl _, fun _ _ => rfl⟩
  | n :: ns, p => by
    unfold terminalLoop
    cases hi : Hibit.getU li n with
    | error e => exact ⟨[], Nat.zero_le _, fun _ _ => rfl⟩
    | ok i =>
      obtain ⟨A, hA, rA⟩ := getChild_reads h p i
      simp only [bind_ok]
      cases hc : getChild h p i with
      | error e => exact ⟨A, by simp only [List.length_cons]; omega, fun h' s => by rw [(rA h' s).1, hc]; rfl⟩
      | ok c =>
        simp only [bind_ok]
        cases hq : c.asPtr with
        | error e => exact ⟨A, by simp only [List.length_cons]; omega, fun h' s => by rw [(rA h' s).1, hc]; simp only [bind_ok, hq, bind_err]⟩
        | ok q =>
          obtain ⟨B, hB, rB⟩ := terminalLoop_reads h li ns q
          refine ⟨A ++ B, by simp only [List.length_append, List.length_cons]; omega, fun h' s => ?_⟩
          obtain ⟨s1, s2⟩ := s.append
          rw [(rA h' s1).1, hc]
          simp only [bind_ok, hq]
          exact rB h' s2

theorem treeData_reads {D : Nat} (hD : 0 < D) (t : DT α) (k : Nat) (li : List Nat) :
    ∃ (A : List (Nat × Nat)) (i : Nat), A.length ≤ D ∧ ∀ t', AgreeD t t' A i →
      treeData D t' k li = treeData D t k li := by
  unfold treeData getTerminalNode
  obtain ⟨A, hA, rA⟩ := terminalLoop_reads t.heap li (List.range (D - 1)) t.root
  rw [List.length_range] at hA
  cases hp : terminalLoop t.heap li (List.range (D - 1)) t.root with
  | error e => exact ⟨A, 0, by omega, fun t' s => by rw [s.root, rA _ s.nodes, hp]; rfl⟩
  | ok p =>
    cases hl : unwrapU li.getLast? with
    | error e => exact ⟨A, 0, by omega, fun t' s => by rw [s.root, rA _ s.nodes, hp]; rfl⟩
    | ok j =>
      simp only [bind_ok, pure_eq_ok]
      obtain ⟨B, hB, rB⟩ := getChild_reads t.heap p j
      cases hc : getChild t.heap p j with
      | error e =>
        refine ⟨A ++ B, 0, by simp only [List.length_append]; omega, fun t' s => ?_⟩
        obtain ⟨s1, s2⟩ := s.nodes.append
        rw [s.root, rA _ s1, hp]
        simp only [bind_ok]
        rw [(rB _ s2).1, hc]
        rfl
      | ok c =>
        simp only [bind_ok]
        cases hq : c.asIdx with
        | error e =>
          refine ⟨A ++ B, 0, by simp only [List.length_append]; omega, fun t' s => ?_⟩
          obtain ⟨s1, s2⟩ := s.nodes.append
          rw [s.root, rA _ s1, hp]
          simp only [bind_ok]
          rw [(rB _ s2).1, hc]
          simp only [bind_ok, hq, bind_err]
        | ok i =>
          refine ⟨A ++ B, i, by simp only [List.length_append]; omega, fun t' s => ?_⟩
          obtain ⟨s1, s2⟩ := s.nodes.append
          rw [s.root, rA _ s1, hp]
          simp only [bind_ok]
          rw [(rB _ s2).1, hc]
          simp only [bind_ok, hq]
          rw [getU_congr s.key, getU_congr s.value]

/-- **C73**, `DenseTree::get`: for every tree and key there are at most `DEPTH` (node, child) positions and one
position `i` of the vectors such that `get` answers the same in every tree agreeing on the masks and children
there, and on the key and value at `i` - whatever else the trees hold. So a lookup reads at most `DEPTH` masks,
`DEPTH` children, one key and one value. -/
theorem C73_dense_get (D : Nat) (t : DT α) (k : Nat) :
    ∃ (A : List (Nat × Nat)) (i : Nat), A.length ≤ D ∧ ∀ t', AgreeD t t' A i →
      (Dense.impl α D).get t' k = (Dense.impl α D).get t k := by
  unfold Impl.get
  cases indexFrom (Dense.impl α D).N (Dense.impl α D).D k with
  | error e => exact ⟨[], 0, Nat.zero_le _, fun _ _ => rfl⟩
  | ok k =>
    simp only [bind_ok]
    cases D with
    | zero => exact ⟨[], 0, Nat.le_refl _, fun _ _ => rfl⟩
    | succ D =>
      cases levelIndices (Dense.impl α (D + 1)).N (Dense.impl α (D + 1)).D k with
      | error e => exact ⟨[], 0, Nat.zero_le _, fun _ _ => rfl⟩
      | ok li => exact treeData_reads (Nat.succ_pos D) t k li

@[inherit_doc C73_dense_get]
theorem C73_dense_get_unchecked (D : Nat) (t : DT α) (k : Nat) :
    ∃ (A : List (Nat × Nat)) (i : Nat), A.length ≤ D ∧ ∀ t', AgreeD t t' A i →
      (Dense.impl α D).getU t' k = (Dense.impl α D).getU t k := by
  unfold Impl.getU
  cases D with
  | zero => exact ⟨[], 0, Nat.le_refl _, fun _ _ => rfl⟩
  | succ D =>
    cases levelIndices (Dense.impl α (D + 1)).N (Dense.impl α (D + 1)).D k with
    | error e => exact ⟨[], 0, Nat.zero_le _, fun _ _ => rfl⟩
    | ok li =>
      obtain ⟨A, i, hA, r⟩ := treeData_reads (Nat.succ_pos D) t k li
      refine ⟨A, i, hA, fun t' s => ?_⟩
      simp only [bind_ok, Dense.impl]
      rw [r t' s]

/-- **C73**, the cursor's `select_level_node` and `select_level_node_unchecked`: at most two nodes are read. -/
theorem C73_dense_select (D : Nat) (t : DT α) (c : Dense.Cursor) (n i : Nat) :
    ∃ A : List (Nat × Nat), A.length ≤ 2 ∧ ∀ t' : DT α, t'.root = t.root → SameAt t.heap t'.heap A →
      (Dense.impl α D).select c t' n i = (Dense.impl α D).select c t n i := by
  show ∃ A : List (Nat × Nat), A.length ≤ 2 ∧ ∀ t' : DT α, t'.root = t.root → SameAt t.heap t'.heap A →
    curSelect D c t' n i = curSelect D c t n i
  unfold curSelect
  by_cases hn : n = 0
  · simp only [hn, if_true]
    obtain ⟨A, hA, rA⟩ := deref_reads t.heap t.root
    refine ⟨A, by omega, fun t' hr s => ?_⟩
    rcases rA _ s with ⟨e, e1, e2⟩ | ⟨n', n, e1, e2, e3⟩
    · rw [hr, e1, e2]
    · rw [hr, e1, e2]; simp only [bind_ok, e3]
  · simp only [hn, if_false]
    have hp : ∀ t' : DT α, t'.root = t.root → prevNode c t' n = prevNode c t n := by
      intro t' hr; unfold prevNode; rw [hr]
    cases hv : prevNode c t n with
    | error e => exact ⟨[], Nat.zero_le _, fun t' hr _ => by rw [hp t' hr, hv]; rfl⟩
    | ok p =>
      obtain ⟨A, hA, rA⟩ := getChild_reads t.heap p i
      simp only [bind_ok]
      -- the node that is selected, if any
      have hB : ∃ B : List (Nat × Nat), B.length ≤ 1 ∧ ∀ cell q : _, getChild t.heap p i = .ok cell →
          cell.asPtr = .ok q → ∀ (b : Bool), ∀ q', (if b then Except.ok q else emptyNode n D) = .ok q' →
          ∀ h', SameAt t.heap h' B → SameMask t.heap h' q' := by
        cases hc : getChild t.heap p i with
        | error e => exact ⟨[], Nat.zero_le _, fun cell q h => by simp at h⟩
        | ok cell =>
          cases hq : cell.asPtr with
          | error e => exact ⟨[], Nat.zero_le _, fun cell' q h h2 => by
              obtain rfl := Except.ok.inj h
              rw [hq] at h2; cases h2⟩
          | ok q =>
            obtain ⟨B, hB, rB⟩ := deref_reads t.heap q
            refine ⟨B, hB, fun cell' q0 h h2 b q' hb h' s => ?_⟩
            obtain rfl := Except.ok.inj h
            rw [hq] at h2
            obtain rfl := Except.ok.inj h2
            cases b with
            | true => simp only [if_true] at hb; obtain rfl := Except.ok.inj hb; exact rB h' s
            | false =>
              simp only [Bool.false_eq_true, if_false] at hb
              unfold emptyNode at hb
              split at hb
              · obtain rfl := Except.ok.inj hb
                exact sameMask_stat _ _ _
              · cases hb
      obtain ⟨B, hB, rB⟩ := hB
      refine ⟨A ++ B, by simp only [List.length_append]; omega, fun t' hr s => ?_⟩
      obtain ⟨s1, s2⟩ := s.append
      rw [hp t' hr, hv]
      simp only [bind_ok]
      rw [(rA _ s1).1]
      rcases (rA _ s1).2 with ⟨e, e1, e2⟩ | ⟨n', n0, e1, e2, e3⟩
      · rw [e1, e2]; rfl
      · rw [e1, e2]
        simp only [bind_ok]
        rw [show n'.contains i = n0.contains i by unfold Node.contains; rw [e3]]
        cases hb : n0.contains i with
        | error e => rfl
        | ok b =>
          simp only [bind_ok]
          cases hc : getChild t.heap p i with
          | error e => rfl
          | ok cell =>
            simp only [bind_ok]
            cases hq : cell.asPtr with
            | error e => rfl
            | ok q =>
              simp only [bind_ok]
              have fin : ∀ q', (if b = true then Except.ok q else emptyNode n D) = .ok q' →
                  (do let c ← setU c (n - 1) (some q')
                      let nn ← deref t'.heap q'
                      pure ([nn.mask], c) : R (Mask × Dense.Cursor)) = (do
                      let c ← setU c (n - 1) (some q')
                      let nn ← deref t.heap q'
                      pure ([nn.mask], c)) := by
                intro q' hq'
                cases setU c (n - 1) (some q') with
                | error e => rfl
                | ok c' =>
                  simp only [bind_ok]
                  rcases rB cell q hc hq b q' hq' _ s2 with ⟨e, e1, e2⟩ | ⟨n', n, e1, e2, e3⟩
                  · rw [e1, e2]
                  · rw [e1, e2]; simp only [bind_ok, e3]
              cases b with
              | true => simpa only [if_true] using fin q (by simp)
              | false =>
                simp only [Bool.false_eq_true, if_false] at fin ⊢
                cases he : emptyNode n D with
                | error e => rfl
                | ok q' => simpa only [bind_ok] using fin q' he

@[inherit_doc C73_dense_select]
theorem C73_dense_select_unchecked (D : Nat) (t : DT α) (c : Dense.Cursor) (n i : Nat) :
    ∃ A : List (Nat × Nat), A.length ≤ 2 ∧ ∀ t' : DT α, t'.root = t.root → SameAt t.heap t'.heap A →
      (Dense.impl α D).selectU c t' n i = (Dense.impl α D).selectU c t n i := by
  show ∃ A : List (Nat × Nat), A.length ≤ 2 ∧ ∀ t' : DT α, t'.root = t.root → SameAt t.heap t'.heap A →
    curSelectU c t' n i = curSelectU c t n i
  unfold curSelectU
  by_cases hn : n = 0
  · simp only [hn, if_true]
    obtain ⟨A, hA, rA⟩ := deref_reads t.heap t.root
    refine ⟨A, by omega, fun t' hr s => ?_⟩
    rcases rA _ s with ⟨e, e1, e2⟩ | ⟨n', n, e1, e2, e3⟩
    · rw [hr, e1, e2]
    · rw [hr, e1, e2]; simp only [bind_ok, e3]
  · simp only [hn, if_false]
    have hp : ∀ t' : DT α, t'.root = t.root → prevNode c t' n = prevNode c t n := by
      intro t' hr; unfold prevNode; rw [hr]
    cases hv : prevNode c t n with
    | error e => exact ⟨[], Nat.zero_le _, fun t' hr _ => by rw [hp t' hr, hv]; rfl⟩
    | ok p =>
      obtain ⟨A, hA, rA⟩ := getChild_reads t.heap p i
      simp only [bind_ok]
      cases hc : getChild t.heap p i with
      | error e => exact ⟨A, by omega, fun t' hr s => by rw [hp t' hr, hv]; simp only [bind_ok]; rw [(rA _ s).1, hc]; rfl⟩
      | ok cell =>
        simp only [bind_ok]
        cases hq : cell.asPtr with
        | error e =>
          exact ⟨A, by omega, fun t' hr s => by
            rw [hp t' hr, hv]; simp only [bind_ok]; rw [(rA _ s).1, hc]; simp only [bind_ok, hq, bind_err]⟩
        | ok q =>
          obtain ⟨B, hB, rB⟩ := deref_reads t.heap q
          refine ⟨A ++ B, by simp only [List.length_append]; omega, fun t' hr s => ?_⟩
          obtain ⟨s1, s2⟩ := s.append
          rw [hp t' hr, hv]
          simp only [bind_ok]
          rw [(rA _ s1).1, hc]
          simp only [bind_ok, hq]
          cases setU c (n - 1) (some q) with
          | error e => rfl
          | ok c' =>
            simp only [bind_ok]
            rcases rB _ s2 with ⟨e, e1, e2⟩ | ⟨n', n, e1, e2, e3⟩
            · rw [e1, e2]
            · rw [e1, e2]; simp only [bind_ok, e3]

/-- **C73**, the cursor's `data` and `data_unchecked`: one node and one value are read, no key. -/
theorem C73_dense_cursor_data (D : Nat) (t : DT α) (c : Dense.Cursor) (i : Nat) :
    ∃ (A : List (Nat × Nat)) (j : Nat), A.length ≤ 1 ∧ ∀ t' : DT α, t'.root = t.root →
      SameAt t.heap t'.heap A → t'.data[j]? = t.data[j]? →
      (Dense.impl α D).curData c t' i = (Dense.impl α D).curData c t i ∧
      (Dense.impl α D).curDataU c t' i = (Dense.impl α D).curDataU c t i := by
  show ∃ (A : List (Nat × Nat)) (j : Nat), A.length ≤ 1 ∧ ∀ t' : DT α, t'.root = t.root →
    SameAt t.heap t'.heap A → t'.data[j]? = t.data[j]? →
    curData D c t' i = curData D c t i ∧ curDataU D c t' i = curDataU D c t i
  unfold curData curDataU
  have hp : ∀ t' : DT α, t'.root = t.root → curTerminal D c t' = curTerminal D c t := by
    intro t' hr; unfold curTerminal; rw [hr]
  cases hv : curTerminal D c t with
  | error e => exact ⟨[], 0, Nat.zero_le _, fun t' hr _ _ => by rw [hp t' hr, hv]; exact ⟨rfl, rfl⟩⟩
  | ok p =>
    obtain ⟨A, hA, rA⟩ := getChild_reads t.heap p i
    have hj : ∃ j, ∀ cell, getChild t.heap p i = .ok cell → ∀ j', cell.asIdx = .ok j' → j' = j := by
      cases hc : getChild t.heap p i with
      | error e => exact ⟨0, fun cell h => by cases h⟩
      | ok cell =>
        cases hq : cell.asIdx with
        | error e => exact ⟨0, fun cell' h j' h2 => by
            obtain rfl := Except.ok.inj h
            rw [hq] at h2; cases h2⟩
        | ok j => exact ⟨j, fun cell' h j' h2 => by
            obtain rfl := Except.ok.inj h
            rw [hq] at h2
            exact (Except.ok.inj h2).symm⟩
    obtain ⟨j, hj⟩ := hj
    refine ⟨A, j, hA, fun t' hr s hd => ?_⟩
    have h1 := getU_congr hd
    rw [hp t' hr, hv]
    simp only [bind_ok]
    rw [(rA _ s).1]
    have hrest : (do let cell ← getChild t.heap p i
                     let dataIndex ← cell.asIdx
                     let v ← Hibit.getU t'.data dataIndex
                     unwrapU v : R α) = (do
                     let cell ← getChild t.heap p i
                     let dataIndex ← cell.asIdx
                     let v ← Hibit.getU t.data dataIndex
                     unwrapU v) := by
      cases hc : getChild t.heap p i with
      | error e => rfl
      | ok cell =>
        simp only [bind_ok]
        cases hq : cell.asIdx with
        | error e => rfl
        | ok j' =>
          obtain rfl := hj cell hc j' hq
          simp only [bind_ok, h1]
    refine ⟨?_, hrest⟩
    rcases (rA _ s).2 with ⟨e, e1, e2⟩ | ⟨n', n0, e1, e2, e3⟩
    · rw [e1, e2]; rfl
    · rw [e1, e2]
      simp only [bind_ok]
      rw [show n'.contains i = n0.contains i by unfold Node.contains; rw [e3]]
      cases hb : n0.contains i with
      | error e => rfl
      | ok b =>
        simp only [bind_ok]
        cases hc : getChild t.heap p i with
        | error e => rfl
        | ok cell =>
          simp only [bind_ok]
          cases hq : cell.asIdx with
          | error e => rfl
          | ok j' =>
            obtain rfl := hj cell hc j' hq
            simp only [bind_ok, h1]

end Dense

/-! ## SparseTree -/
section Sparse
open Hibit.Sparse
variable {α : Type}

/-- The child index stored at position `x.2.2` of block `x.2.1` of level `x.1`. -/
def childCell (t : ST α) (x : Nat × Nat × Nat) : Option Nat :=
  ((t.levels[x.1]?).bind (·.blocks[x.2.1]?)).bind (·.idx[x.2.2]?)

/-- The trees have equally many levels and agree on the listed (level, block, position) child indices. -/
def SameCells (t t' : ST α) (A : List (Nat × Nat × Nat)) : Prop :=
  t'.levels.length = t.levels.length ∧ ∀ x ∈ A, childCell t' x = childCell t x

theorem SameCells.append {t t' : ST α} {A B : List (Nat × Nat × Nat)} (s : SameCells t t' (A ++ B)) :
    SameCells t t' A ∧ SameCells t t' B :=
  ⟨⟨s.1, fun x hx => s.2 x (by simp [hx])⟩, ⟨s.1, fun x hx => s.2 x (by simp [hx])⟩⟩

theorem fetchFrom_reads (t : ST α) (li : List Nat) : ∀ (Ls : List Level) (n acc : Nat),
    t.levels.drop n = Ls →
    ∃ A : List (Nat × Nat × Nat), A.length ≤ Ls.length ∧ ∀ t', SameCells t t' A →
      (do let r ← fetchFrom li n acc (t'.levels.drop n); pure r.2 : R Nat) =
      (do let r ← fetchFrom li n acc Ls; pure r.2) := by
  intro Ls
  induction Ls with
  | nil =>
    intro n acc hL
    refine ⟨[], Nat.le_refl _, fun t' s => ?_⟩
    have : t'.levels.drop n = [] := by
      rw [List.drop_eq_nil_iff] at hL ⊢
      rw [s.1]; exact hL
    rw [this]
  | cons L Ls ih =>
    intro n acc hL
    have hn : t.levels[n]? = some L := by
      have := congrArg (·[0]?) hL
      simpa using this
    have hlt : n < t.levels.length := by
      rcases Nat.lt_or_ge n t.levels.length with h | h
      · exact h
      · rw [List.getElem?_eq_none h] at hn; cases hn
    have hL' : t.levels.drop (n + 1) = Ls := by
      rw [← List.drop_drop, hL]; rfl
    have hsplit : ∀ t' : ST α, t'.levels.length = t.levels.length →
        ∃ L', t'.levels[n]? = some L' ∧ t'.levels.drop n = L' :: t'.levels.drop (n + 1) := by
      intro t' h
      have h' : n < t'.levels.length := by omega
      exact ⟨t'.levels[n], List.getElem?_eq_getElem h', List.drop_eq_getElem_cons h'⟩
    have hstep : ∀ (L : Level) (Ls : List Level),
        (do let r ← fetchFrom li n acc (L :: Ls); pure r.2 : R Nat) =
        (do let i ← Hibit.getU li n
            let bi ← unwrapU ((L.blocks[acc]?).bind (·.idx[i]?))
            let r ← fetchFrom li (n + 1) bi Ls
            pure r.2) := by
      intro L Ls
      rw [fetchFrom]
      unfold Hibit.getU Block.getOrZero Hibit.getU unwrapU
      cases L.blocks[acc]? with
      | none => cases li[n]? <;> rfl
      | some b =>
        cases li[n]? with
        | none => rfl
        | some i =>
          simp only [bind_ok, Option.bind_some]
          cases b.idx[i]? with
          | none => rfl
          | some bi =>
            simp only [bind_ok]
            cases fetchFrom li (n + 1) bi Ls <;> rfl
    cases hi : Hibit.getU li n with
    | error e =>
      refine ⟨[], Nat.zero_le _, fun t' s => ?_⟩
      obtain ⟨L', _, h2⟩ := hsplit t' s.1
      rw [h2, hstep, hstep, hi]
      rfl
    | ok i =>
      have hcell : childCell t (n, acc, i) = (L.blocks[acc]?).bind (·.idx[i]?) := by
        unfold childCell; rw [hn]; rfl
      cases hb : (L.blocks[acc]?).bind (·.idx[i]?) with
      | none =>
        refine ⟨[(n, acc, i)], by simp, fun t' s => ?_⟩
        obtain ⟨L', h1, h2⟩ := hsplit t' s.1
        have hc := s.2 (n, acc, i) (by simp)
        rw [hcell] at hc
        have hc' : (L'.blocks[acc]?).bind (·.idx[i]?) = (L.blocks[acc]?).bind (·.idx[i]?) := by
          rw [← hc]; unfold childCell; rw [h1]; rfl
        rw [h2, hstep, hstep, hi]
        simp only [bind_ok]
        rw [hc', hb]
        rfl
      | some bi =>
        obtain ⟨A, hA, rA⟩ := ih (n + 1) bi hL'
        refine ⟨[(n, acc, i)] ++ A, by simp only [List.length_append, List.length_cons, List.length_nil]; omega,
          fun t' s => ?_⟩
        obtain ⟨s1, s2⟩ := s.append
        obtain ⟨L', h1, h2⟩ := hsplit t' s.1
        have hc := s1.2 (n, acc, i) (by simp)
        rw [hcell] at hc
        have hc' : (L'.blocks[acc]?).bind (·.idx[i]?) = (L.blocks[acc]?).bind (·.idx[i]?) := by
          rw [← hc]; unfold childCell; rw [h1]; rfl
        rw [h2, hstep, hstep, hi]
        simp only [bind_ok]
        rw [hc', hb]
        simp only [unwrapU, bind_ok]
        exact rA t' s2

theorem fetchBlockIndex_reads (t : ST α) (li : List Nat) :
    ∃ A : List (Nat × Nat × Nat), A.length ≤ t.levels.length ∧ ∀ t', SameCells t t' A →
      fetchBlockIndex t' li = fetchBlockIndex t li := by
  obtain ⟨A, hA, rA⟩ := fetchFrom_reads t li t.levels 0 0 (by simp)
  refine ⟨A, hA, fun t' s => ?_⟩
  have := rA t' s
  rw [List.drop_zero] at this
  unfold fetchBlockIndex fetchBlockIndices
  exact this

theorem treeData_reads_sparse (t : ST α) (li : List Nat) :
    ∃ (A : List (Nat × Nat × Nat)) (i : Nat), A.length ≤ t.levels.length ∧ ∀ t', SameCells t t' A →
      t'.values[i]? = t.values[i]? → Sparse.treeData t' li = Sparse.treeData t li := by
  obtain ⟨A, hA, rA⟩ := fetchBlockIndex_reads t li
  unfold Sparse.treeData
  cases hf : fetchBlockIndex t li with
  | error e => exact ⟨A, 0, hA, fun t' s _ => by rw [rA t' s, hf]; rfl⟩
  | ok di => exact ⟨A, di, hA, fun t' s hv => by
      rw [rA t' s, hf]
      simp only [bind_ok]
      rw [getU_congr hv]⟩

/-- **C73**, `SparseTree::get`: for every tree and key there are at most as many child indices as the tree has
levels, and one position `i` of the values, such that `get` answers the same in every tree agreeing there. No mask
and no key is read. -/
theorem C73_sparse_get (N D : Nat) (t : ST α) (k : Nat) :
    ∃ (A : List (Nat × Nat × Nat)) (i : Nat), A.length ≤ t.levels.length ∧ ∀ t', SameCells t t' A →
      t'.values[i]? = t.values[i]? → (Sparse.impl α N D).get t' k = (Sparse.impl α N D).get t k := by
  unfold Impl.get
  cases indexFrom (Sparse.impl α N D).N (Sparse.impl α N D).D k with
  | error e => exact ⟨[], 0, Nat.zero_le _, fun _ _ _ => rfl⟩
  | ok k =>
    simp only [bind_ok]
    cases levelIndices (Sparse.impl α N D).N (Sparse.impl α N D).D k with
    | error e => exact ⟨[], 0, Nat.zero_le _, fun _ _ _ => rfl⟩
    | ok li => exact treeData_reads_sparse t li

@[inherit_doc C73_sparse_get]
theorem C73_sparse_get_unchecked (N D : Nat) (t : ST α) (k : Nat) :
    ∃ (A : List (Nat × Nat × Nat)) (i : Nat), A.length ≤ t.levels.length ∧ ∀ t', SameCells t t' A →
      t'.values[i]? = t.values[i]? → (Sparse.impl α N D).getU t' k = (Sparse.impl α N D).getU t k := by
  unfold Impl.getU
  cases levelIndices (Sparse.impl α N D).N (Sparse.impl α N D).D k with
  | error e => exact ⟨[], 0, Nat.zero_le _, fun _ _ _ => rfl⟩
  | ok li =>
    obtain ⟨A, i, hA, r⟩ := treeData_reads_sparse t li
    refine ⟨A, i, hA, fun t' s hv => ?_⟩
    simp only [bind_ok, Sparse.impl]
    rw [r t' s hv]

/-- **C73**, `get_or_default` and `get_mut`: as for `get`. -/
theorem C73_get_or_default (N D : Nat) (t : ST α) (k : Nat) :
    ∃ (A : List (Nat × Nat × Nat)) (i : Nat), A.length ≤ t.levels.length ∧ ∀ t', SameCells t t' A →
      t'.values[i]? = t.values[i]? → getOrDefault N D t' k = getOrDefault N D t k ∧
        getMut N D t' k = getMut N D t k := by
  unfold getOrDefault getMut
  cases indexFrom N D k with
  | error e => exact ⟨[], 0, Nat.zero_le _, fun _ _ _ => ⟨rfl, rfl⟩⟩
  | ok k =>
    simp only [bind_ok]
    cases levelIndices N D k with
    | error e => exact ⟨[], 0, Nat.zero_le _, fun _ _ _ => ⟨rfl, rfl⟩⟩
    | ok li =>
      simp only [bind_ok]
      obtain ⟨A, hA, rA⟩ := fetchBlockIndex_reads t li
      cases hf : fetchBlockIndex t li with
      | error e => exact ⟨A, 0, hA, fun t' s _ => by rw [rA t' s, hf]; exact ⟨rfl, rfl⟩⟩
      | ok di => exact ⟨A, di, hA, fun t' s hv => by
          rw [rA t' s, hf]
          simp only [bind_ok]
          rw [getU_congr hv]
          exact ⟨rfl, rfl⟩⟩

/-- **C73**: a SparseTree of any history has `D` levels, so the numbers of `C73_sparse_get` are at most `D`. -/
theorem C73_sparse_levels {N D : Nat} {dflt : Option α} {ops : List (Sparse.Op α)} {t : ST α}
    (h : SparseHistory N D dflt ops) (hr : SparseReached N D dflt ops t) : t.levels.length = D := by
  obtain ⟨B, S⟩ := h.rep hr
  exact S.lv.len

end Sparse

/-! ## Concrete cases -/

/-- In the DenseTree with keys 5, 64, 200: at most two nodes, one key and one value decide what `get(64)` says. -/
example : ∃ (A : List (Nat × Nat)) (i : Nat), A.length ≤ 2 ∧ ∀ t', AgreeD exD t' A i →
    (Dense.impl Nat 2).get t' 64 = .ok (some 72) := by
  obtain ⟨A, i, hA, r⟩ := C73_dense_get 2 exD 64
  exact ⟨A, i, hA, fun t' s => (r t' s).trans (by decide +kernel)⟩

/-- Such a tree, different from `exD`: all values but the one of key 64 wiped, the other terminal nodes gone. -/
example :
    let without (a : Nat) : DT Nat := ⟨⟨fun b => if b = a then none else exD.heap.node b, exD.heap.next⟩,
      exD.root, exD.data, exD.keys⟩
    let needed (a : Nat) : Bool := match (Dense.impl Nat 2).get (without a) 64 with
      | .ok (some 72) => false
      | _ => true
    let t' : DT Nat := ⟨⟨fun a => if needed a then exD.heap.node a else none, exD.heap.next⟩, exD.root,
      exD.data.map (fun v => if v = some 72 then v else none), exD.keys⟩
    (Dense.impl Nat 2).get t' 64 = .ok (some 72) ∧ (Dense.impl Nat 2).get t' 5 = .error .ub := by
  decide +kernel

/-- SparseTree `exS` (keys 5, 128, 200), key 128. -/
example : ∃ (A : List (Nat × Nat × Nat)) (i : Nat), A.length ≤ 2 ∧ ∀ t', SameCells exS t' A →
    t'.values[i]? = exS.values[i]? → (Sparse.impl Nat 2 2).get t' 128 = (Sparse.impl Nat 2 2).get exS 128 := by
  obtain ⟨A, i, hA, r⟩ := C73_sparse_get 2 2 exS 128
  rw [C73_sparse_levels exOpsS_history exS_reached] at hA
  exact ⟨A, i, hA, r⟩

end Hibit.Props
