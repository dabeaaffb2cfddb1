import Verif.Alias.Tree
/-!
# The cursor of DenseTree, with the references it makes

Reads only: any number of cursors of the same tree may be used in any order.
-/
namespace Hibit.Alias
open Hibit Hibit.Dense

/-! ## Model -/

/-- dense_tree.rs:438-442, 469-473, see `Dense.prevNode`; `src.root` is read through `&src`. -/
def prevNode (c : Cursor) (n : Nat) (z : St) : R (Ptr × St) :=
  if n = 1 then readRoot z
  else do
    let o ← Hibit.getU c (n - 1 - 1)
    let p ← unwrapU o
    return (p, z)

/-- dense_tree.rs:424-452 `select_level_node`. -/
def curSelect (D : Nat) (c : Cursor) (n i : Nat) (z : St) : R (Mask × Cursor × St) := do
  if n = 0 then
    let (r, z) ← readRoot z
    let (m, z) ← maskOf r z
    return ([m], c, z)
  else
    let (prev, z) ← prevNode c n z
    let (contains, z) ← headerContains prev i z
    let (cell, z) ← getChild prev i z
    let node ← cell.asPtr
    let node ← if contains then Except.ok node else emptyNode n D
    let c ← setU c (n - 1) (some node)
    let (m, z) ← maskOf node z
    return ([m], c, z)

/-- dense_tree.rs:455-480 `select_level_node_unchecked`. -/
def curSelectU (c : Cursor) (n i : Nat) (z : St) : R (Mask × Cursor × St) := do
  if n = 0 then
    let (r, z) ← readRoot z
    let (m, z) ← maskOf r z
    return ([m], c, z)
  else
    let (prev, z) ← prevNode c n z
    let (cell, z) ← getChild prev i z
    let node ← cell.asPtr
    let c ← setU c (n - 1) (some node)
    let (m, z) ← maskOf node z
    return ([m], c, z)

/-- dense_tree.rs:488-493, 511-516. -/
def curTerminal (D : Nat) (c : Cursor) (z : St) : R (Ptr × St) :=
  if D = 1 then readRoot z
  else do
    let o ← unwrapU c.getLast?
    let p ← unwrapU o
    return (p, z)

/-- dense_tree.rs:485-505 `Cursor::data`. -/
def curData {α : Type} (D : Nat) (c : Cursor) (v : Vecs α) (i : Nat) (z : St) : R (Option α × St) := do
  let (node, z) ← curTerminal D c z
  let (contains, z) ← headerContains node i z
  if contains then
    let (cell, z) ← getChild node i z
    let dataIndex ← cell.asIdx
    let x ← Hibit.getU v.data dataIndex
    let x ← unwrapU x
    return (some x, z)
  else return (none, z)

/-- dense_tree.rs:508-520 `Cursor::data_unchecked`. -/
def curDataU {α : Type} (D : Nat) (c : Cursor) (v : Vecs α) (i : Nat) (z : St) : R (α × St) := do
  let (node, z) ← curTerminal D c z
  let (cell, z) ← getChild node i z
  let dataIndex ← cell.asIdx
  let x ← Hibit.getU v.data dataIndex
  let x ← unwrapU x
  return (x, z)

/-! ## They succeed whatever is borrowed -/

/-- Nodes and root are unchanged. -/
structure Still (z z' : St) : Prop where
  heap : z'.heap = z.heap
  root : z'.root = z.root

theorem Still.trans {z z1 z2 : St} (h : Still z z1) (h' : Still z1 z2) : Still z z2 :=
  ⟨h'.heap.trans h.heap, h'.root.trans h.root⟩

theorem Eff.still {S : Place → Prop} {t : Tag} {z z' : St} (h : Eff S t z z') : Still z z' := ⟨h.heap, h.root⟩

section
variable {α : Type} {D : Nat} {t : DT α} {v : Vecs α} {z : St}

theorem Holds.still (hh : Holds t v z) {z' : St} (h : Still z z') : Holds t v z' :=
  ⟨h.heap.trans hh.heap, h.root.trans hh.root, hh.data, hh.keys⟩

theorem root_ok (hh : Holds t v z) : ∃ z', readRoot z = .ok (t.root, z') ∧ Still z z' := by
  obtain ⟨z', e, h, r⟩ := readRoot_ok z
  rw [hh.root] at e
  exact ⟨z', e, h, r⟩

theorem prevNode_ok (hh : Holds t v z) {c : Cursor} {n : Nat} {p : Ptr} (e : Dense.prevNode c t n = .ok p) :
    ∃ z', prevNode c n z = .ok (p, z') ∧ Still z z' := by
  unfold Dense.prevNode at e
  unfold prevNode
  by_cases hn : n = 1
  · rw [if_pos hn] at e ⊢
    cases e
    exact root_ok hh
  · rw [if_neg hn] at e ⊢
    obtain ⟨o, ho, e⟩ := bind_inv e
    refine ⟨z, ?_, rfl, rfl⟩
    rw [ho, bind_ok, e, bind_ok]
    rfl

theorem maskAt (hh : Holds t v z) {p : Ptr} {n : Node} (e : deref t.heap p = .ok n) :
    ∃ z', maskOf p z = .ok (n.mask, z') ∧ Still z z' := by
  obtain ⟨z', e', f⟩ := maskOf_ok (z := z) (by rw [hh.heap]; exact e)
  exact ⟨z', e', f.still⟩

theorem containsAt (hh : Holds t v z) {p : Ptr} {n : Node} {i : Nat} {c : Bool} (e : deref t.heap p = .ok n)
    (hc : n.contains i = .ok c) : ∃ z', headerContains p i z = .ok (c, z') ∧ Still z z' := by
  obtain ⟨z', e', f⟩ := headerContains_ok (z := z) (by rw [hh.heap]; exact e) hc
  exact ⟨z', e', f.still⟩

theorem childAt (hh : Holds t v z) {p : Ptr} {i : Nat} {c : Cell} (e : Dense.getChild t.heap p i = .ok c) :
    ∃ z', getChild p i z = .ok (c, z') ∧ Still z z' := by
  obtain ⟨z', e', f⟩ := getChild_ok (z := z) (by rw [hh.heap]; exact e)
  exact ⟨z', e', f.still⟩

theorem curSelect_ok (hh : Holds t v z) {c c' : Cursor} {n i : Nat} {m : Mask} (e : Dense.curSelect D c t n i = .ok (m, c')) :
    ∃ z', curSelect D c n i z = .ok (m, c', z') ∧ Still z z' := by
  unfold Dense.curSelect at e
  unfold curSelect
  by_cases hn : n = 0
  · rw [if_pos hn] at e ⊢
    obtain ⟨r, hr, e⟩ := bind_inv e
    cases e
    obtain ⟨z1, e1, s1⟩ := root_ok hh
    obtain ⟨z2, e2, s2⟩ := maskAt (hh.still s1) hr
    refine ⟨z2, ?_, s1.trans s2⟩
    rw [e1, bind_ok]
    simp only
    rw [e2, bind_ok]
    rfl
  · rw [if_neg hn] at e ⊢
    obtain ⟨prev, hp, e⟩ := bind_inv e
    obtain ⟨pn, hpn, e⟩ := bind_inv e
    obtain ⟨b, hb, e⟩ := bind_inv e
    obtain ⟨cell, hcell, e⟩ := bind_inv e
    obtain ⟨node, hnode, e⟩ := bind_inv e
    obtain ⟨node', hnode', e⟩ : ∃ node', (if b then Except.ok node else emptyNode n D) = .ok node' ∧
        (do
          let c ← setU c (n - 1) (some node')
          let nn ← deref t.heap node'
          pure ([nn.mask], c) : R (Mask × Cursor)) = .ok (m, c') := by
      cases b with
      | true => exact ⟨node, rfl, by simpa using e⟩
      | false =>
        simp only [Bool.false_eq_true, if_false] at e ⊢
        exact bind_inv e
    obtain ⟨c1, hc1, e⟩ := bind_inv e
    obtain ⟨nn, hnn, e⟩ := bind_inv e
    cases e
    obtain ⟨z1, e1, s1⟩ := prevNode_ok hh hp
    obtain ⟨z2, e2, s2⟩ := containsAt (hh.still s1) hpn hb
    obtain ⟨z3, e3, s3⟩ := childAt ((hh.still s1).still s2) hcell
    obtain ⟨z4, e4, s4⟩ := maskAt (((hh.still s1).still s2).still s3) hnn
    refine ⟨z4, ?_, ((s1.trans s2).trans s3).trans s4⟩
    rw [e1, bind_ok]
    simp only
    rw [e2, bind_ok]
    simp only
    rw [e3, bind_ok]
    simp only
    rw [hnode, bind_ok]
    cases b with
    | true =>
      simp only [if_true, Except.ok.injEq] at hnode' ⊢
      subst hnode'
      rw [bind_ok, hc1, bind_ok, e4, bind_ok]
      rfl
    | false =>
      simp only [Bool.false_eq_true, if_false] at hnode' ⊢
      rw [hnode', bind_ok, hc1, bind_ok, e4, bind_ok]
      rfl

theorem curSelectU_ok (hh : Holds t v z) {c c' : Cursor} {n i : Nat} {m : Mask} (e : Dense.curSelectU c t n i = .ok (m, c')) :
    ∃ z', curSelectU c n i z = .ok (m, c', z') ∧ Still z z' := by
  unfold Dense.curSelectU at e
  unfold curSelectU
  by_cases hn : n = 0
  · rw [if_pos hn] at e ⊢
    obtain ⟨r, hr, e⟩ := bind_inv e
    cases e
    obtain ⟨z1, e1, s1⟩ := root_ok hh
    obtain ⟨z2, e2, s2⟩ := maskAt (hh.still s1) hr
    refine ⟨z2, ?_, s1.trans s2⟩
    rw [e1, bind_ok]
    simp only
    rw [e2, bind_ok]
    rfl
  · rw [if_neg hn] at e ⊢
    obtain ⟨prev, hp, e⟩ := bind_inv e
    obtain ⟨cell, hcell, e⟩ := bind_inv e
    obtain ⟨node, hnode, e⟩ := bind_inv e
    obtain ⟨c1, hc1, e⟩ := bind_inv e
    obtain ⟨nn, hnn, e⟩ := bind_inv e
    cases e
    obtain ⟨z1, e1, s1⟩ := prevNode_ok hh hp
    obtain ⟨z3, e3, s3⟩ := childAt (hh.still s1) hcell
    obtain ⟨z4, e4, s4⟩ := maskAt ((hh.still s1).still s3) hnn
    refine ⟨z4, ?_, (s1.trans s3).trans s4⟩
    rw [e1, bind_ok]
    simp only
    rw [e3, bind_ok]
    simp only
    rw [hnode, bind_ok, hc1, bind_ok, e4, bind_ok]
    rfl

theorem curTerminal_ok (hh : Holds t v z) {c : Cursor} {p : Ptr} (e : Dense.curTerminal D c t = .ok p) :
    ∃ z', curTerminal D c z = .ok (p, z') ∧ Still z z' := by
  unfold Dense.curTerminal at e
  unfold curTerminal
  by_cases hn : D = 1
  · rw [if_pos hn] at e ⊢
    cases e
    exact root_ok hh
  · rw [if_neg hn] at e ⊢
    obtain ⟨o, ho, e⟩ := bind_inv e
    refine ⟨z, ?_, rfl, rfl⟩
    rw [ho, bind_ok, e, bind_ok]
    rfl

theorem curData_ok (hh : Holds t v z) {c : Cursor} {i : Nat} {x : Option α} (e : Dense.curData D c t i = .ok x) :
    ∃ z', curData D c v i z = .ok (x, z') ∧ Still z z' := by
  unfold Dense.curData at e
  unfold curData
  obtain ⟨p, hp, e⟩ := bind_inv e
  obtain ⟨n, hn, e⟩ := bind_inv e
  obtain ⟨b, hb, e⟩ := bind_inv e
  obtain ⟨z1, e1, s1⟩ := curTerminal_ok hh hp
  obtain ⟨z2, e2, s2⟩ := containsAt (hh.still s1) hn hb
  rw [e1, bind_ok]
  simp only
  rw [e2, bind_ok]
  simp only
  cases b with
  | true =>
    simp only [if_true] at e ⊢
    obtain ⟨cell, hcell, e⟩ := bind_inv e
    obtain ⟨j, hj, e⟩ := bind_inv e
    obtain ⟨y, hy, e⟩ := bind_inv e
    obtain ⟨y', hy', e⟩ := bind_inv e
    cases e
    obtain ⟨z3, e3, s3⟩ := childAt ((hh.still s1).still s2) hcell
    refine ⟨z3, ?_, (s1.trans s2).trans s3⟩
    rw [e3, bind_ok]
    simp only
    rw [hj, bind_ok, hh.data, hy, bind_ok, hy', bind_ok]
    rfl
  | false =>
    simp only [Bool.false_eq_true, if_false] at e ⊢
    cases e
    exact ⟨z2, rfl, s1.trans s2⟩

theorem curDataU_ok (hh : Holds t v z) {c : Cursor} {i : Nat} {x : α} (e : Dense.curDataU D c t i = .ok x) :
    ∃ z', curDataU D c v i z = .ok (x, z') ∧ Still z z' := by
  unfold Dense.curDataU at e
  unfold curDataU
  obtain ⟨p, hp, e⟩ := bind_inv e
  obtain ⟨cell, hcell, e⟩ := bind_inv e
  obtain ⟨j, hj, e⟩ := bind_inv e
  obtain ⟨y, hy, e⟩ := bind_inv e
  obtain ⟨z1, e1, s1⟩ := curTerminal_ok hh hp
  obtain ⟨z3, e3, s3⟩ := childAt (hh.still s1) hcell
  refine ⟨z3, ?_, s1.trans s3⟩
  rw [e1, bind_ok]
  simp only
  rw [e3, bind_ok]
  simp only
  rw [hj, bind_ok, hh.data, hy, bind_ok, e, bind_ok]
  rfl

end

/-! ## Any number of readers -/

/-- A call made by the owner of cursor `c`, or a `get`. -/
inductive Call where
  | select (c n i : Nat)
  | selectU (c n i : Nat)
  | data (c i : Nat)
  | dataU (c i : Nat)
  | get (k : Nat)

/-- What a call returns. -/
inductive Answer (α : Type) where
  | mask (m : Mask)
  | data (x : Option α)

/-- One call, with borrows; `cs` are the cursors. -/
def call {α : Type} (D : Nat) (v : Vecs α) (cs : Nat → Cursor) (z : St) : Call → R (Answer α × (Nat → Cursor) × St)
  | .select c n i => do
    let (m, k, z) ← curSelect D (cs c) n i z
    return (.mask m, upd cs c k, z)
  | .selectU c n i => do
    let (m, k, z) ← curSelectU (cs c) n i z
    return (.mask m, upd cs c k, z)
  | .data c i => do
    let (x, z) ← curData D (cs c) v i z
    return (.data x, cs, z)
  | .dataU c i => do
    let (x, z) ← curDataU D (cs c) v i z
    return (.data (some x), cs, z)
  | .get k => do
    let (x, z) ← get D v k z
    return (.data x, cs, z)

/-- A sequence of calls, with borrows. -/
def calls {α : Type} (D : Nat) (v : Vecs α) : (Nat → Cursor) → St → List Call → R (List (Answer α) × (Nat → Cursor) × St)
  | cs, z, [] => .ok ([], cs, z)
  | cs, z, c :: l => do
    let (a, cs, z) ← call D v cs z c
    let (as, cs, z) ← calls D v cs z l
    return (a :: as, cs, z)

/-- One call on the tree without borrows. -/
def plainCall {α : Type} (D : Nat) (t : DT α) (cs : Nat → Cursor) : Call → R (Answer α × (Nat → Cursor))
  | .select c n i => do
    let (m, k) ← (impl α D).select (cs c) t n i
    return (.mask m, upd cs c k)
  | .selectU c n i => do
    let (m, k) ← (impl α D).selectU (cs c) t n i
    return (.mask m, upd cs c k)
  | .data c i => do
    let x ← (impl α D).curData (cs c) t i
    return (.data x, cs)
  | .dataU c i => do
    let x ← (impl α D).curDataU (cs c) t i
    return (.data (some x), cs)
  | .get k => do
    let x ← (impl α D).get t k
    return (.data x, cs)

/-- A sequence of calls without borrows. -/
def plainCalls {α : Type} (D : Nat) (t : DT α) : (Nat → Cursor) → List Call → R (List (Answer α) × (Nat → Cursor))
  | cs, [] => .ok ([], cs)
  | cs, c :: l => do
    let (a, cs) ← plainCall D t cs c
    let (as, cs) ← plainCalls D t cs l
    return (a :: as, cs)

theorem call_ok {α : Type} {D : Nat} {t : DT α} {v : Vecs α} {z : St} (hh : Holds t v z) {cs cs' : Nat → Cursor} {c : Call}
    {a : Answer α} (e : plainCall D t cs c = .ok (a, cs')) : ∃ z', call D v cs z c = .ok (a, cs', z') ∧ Still z z' := by
  cases c with
  | select c n i =>
    simp only [plainCall] at e
    obtain ⟨⟨m, k⟩, hm, e⟩ := bind_inv e
    cases e
    obtain ⟨z', e1, s⟩ := curSelect_ok hh hm
    exact ⟨z', by simp only [call, e1, bind_ok, pure_eq_ok], s⟩
  | selectU c n i =>
    simp only [plainCall] at e
    obtain ⟨⟨m, k⟩, hm, e⟩ := bind_inv e
    cases e
    obtain ⟨z', e1, s⟩ := curSelectU_ok hh hm
    exact ⟨z', by simp only [call, e1, bind_ok, pure_eq_ok], s⟩
  | data c i =>
    simp only [plainCall] at e
    obtain ⟨x, hx, e⟩ := bind_inv e
    cases e
    obtain ⟨z', e1, s⟩ := curData_ok hh hx
    exact ⟨z', by simp only [call, e1, bind_ok, pure_eq_ok], s⟩
  | dataU c i =>
    simp only [plainCall] at e
    obtain ⟨x, hx, e⟩ := bind_inv e
    cases e
    obtain ⟨z', e1, s⟩ := curDataU_ok hh hx
    exact ⟨z', by simp only [call, e1, bind_ok, pure_eq_ok], s⟩
  | get k =>
    simp only [plainCall] at e
    obtain ⟨x, hx, e⟩ := bind_inv e
    cases e
    obtain ⟨z', e1, g1, r1⟩ := get_ok hh hx
    exact ⟨z', by simp only [call, e1, bind_ok, pure_eq_ok], g1, r1⟩

theorem calls_ok {α : Type} {D : Nat} {t : DT α} {v : Vecs α} : ∀ (l : List Call) {z : St} {cs cs' : Nat → Cursor}
    {as : List (Answer α)}, Holds t v z → plainCalls D t cs l = .ok (as, cs') →
    ∃ z', calls D v cs z l = .ok (as, cs', z') ∧ Still z z'
  | [], z, cs, cs', as, _, e => by
    cases e
    exact ⟨z, rfl, rfl, rfl⟩
  | c :: l, z, cs, cs', as, hh, e => by
    simp only [plainCalls] at e
    obtain ⟨⟨a, cs1⟩, ha, e⟩ := bind_inv e
    obtain ⟨⟨as1, cs2⟩, has, e⟩ := bind_inv e
    cases e
    obtain ⟨z1, e1, s1⟩ := call_ok hh ha
    obtain ⟨z2, e2, s2⟩ := calls_ok l (hh.still s1) has
    exact ⟨z2, by simp only [calls, e1, bind_ok, e2, pure_eq_ok], s1.trans s2⟩

end Hibit.Alias
