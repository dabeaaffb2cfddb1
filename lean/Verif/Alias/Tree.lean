import Verif.Alias.Nodes
/-!
# DenseTree operations obey the aliasing rules
-/
namespace Hibit.Alias
open Hibit Hibit.Dense

/-! ## The slot `node: &mut NodePtr` -/

theorem readSlot_ok {s : Slot} {t : Tag} {z : St} {p : Ptr} (hc : Can z (slotPlace s) .write t)
    (e : (Dense.Walk.mk z.heap z.root s).read = .ok p) :
    ∃ z', readSlot s t z = .ok (p, z') ∧ Eff (· = slotPlace s) t z z' := by
  cases s with
  | root =>
    obtain ⟨z', e1, f⟩ := touch_ok hc.read
    cases e
    refine ⟨z', ?_, f⟩
    unfold readSlot
    simp only
    rw [show Place.root = slotPlace .root from rfl, e1, bind_ok, f.root]
    rfl
  | cell a d =>
    simp only [Dense.Walk.read] at e
    obtain ⟨n, hn, e⟩ := bind_inv e
    obtain ⟨c, hcell, e⟩ := bind_inv e
    have hn := unwrapU_inv hn
    obtain ⟨z', e1, f⟩ := readCell_ok (p := .heap a) (d := d) hc.read (deref_heap hn) hcell
    refine ⟨z', ?_, f⟩
    unfold readSlot
    simp only
    rw [e1, bind_ok]
    simp only
    rw [e, bind_ok]
    rfl

theorem writeSlot_ok {s : Slot} {t : Tag} {z : St} {p : Ptr} {w' : Dense.Walk} (hc : Can z (slotPlace s) .write t)
    (e : (Dense.Walk.mk z.heap z.root s).write p = .ok w') :
    ∃ z', writeSlot s t p z = .ok z' ∧ z'.heap = w'.heap ∧ z'.root = w'.root ∧ w'.slot = s := by
  cases s with
  | root =>
    obtain ⟨z', e1, f⟩ := touch_ok hc
    cases e
    refine ⟨{ z' with root := p }, ?_, f.heap, rfl, rfl⟩
    unfold writeSlot
    simp only
    rw [show Place.root = slotPlace .root from rfl, e1, bind_ok]
    rfl
  | cell a d =>
    simp only [Dense.Walk.write] at e
    obtain ⟨n, hn, e⟩ := bind_inv e
    have hn := unwrapU_inv hn
    by_cases hk : n.kind ≠ .branch
    · rw [if_pos hk] at e; cases e
    rw [if_neg hk] at e
    obtain ⟨cs, hcs, e⟩ := bind_inv e
    cases e
    obtain ⟨z', e1, g, f⟩ := writeCell_ok hn hc hcs
    refine ⟨z', ?_, g, f.root, rfl⟩
    unfold writeSlot
    simp only
    rw [checkKind_ok hn (Decidable.of_not_not hk), bind_ok]
    exact e1

/-- The walk of the cell model and the walk with borrows are at the same place; `node` may be written through. -/
structure Same (w : Dense.Walk) (u : Walk) : Prop where
  heap : u.st.heap = w.heap
  root : u.st.root = w.root
  slot : u.slot = w.slot
  can : Can u.st (slotPlace w.slot) .write u.tag

/-- The slot is not part of the node it points to. -/
def Apart (w : Dense.Walk) : Prop :=
  ∀ b d a, w.slot = .cell b d → w.read = .ok (.heap a) → b ≠ a ∧ b < w.heap.next

theorem nodeInsert_heap {h : Heap} {k : Kind} {p : Ptr} {i : Nat} {v : Cell} {r : Heap × Nat × Nat}
    (e : Dense.nodeInsert h k p i v = .ok r) : ∃ a, p = .heap a := by
  unfold Dense.nodeInsert at e
  obtain ⟨x, hx, -⟩ := bind_inv e
  exact ⟨_, (derefMut_inv hx).1⟩

theorem nodeNew_next {h h' : Heap} {k : Kind} {c a : Nat} {v : Cell} (e : Dense.nodeNew h k c v = .ok (h', a)) :
    a = h.next ∧ h'.next = h.next + 1 := by
  unfold Dense.nodeNew at e
  split at e
  · cases e; exact ⟨rfl, rfl⟩
  · cases e

/-- dense_tree.rs:141-147. -/
theorem newChild_ok {D N : Nat} {z : St} {h : Heap} {a : Nat}
    (e : (if N = D - 2 then Dense.nodeNew z.heap .term defaultCap (.idx 0)
      else do
        let e ← emptyNode (N + 2) D
        Dense.nodeNew z.heap .branch defaultCap (.ptr e)) = .ok (h, a)) :
    ∃ z', newChild D N z = .ok (a, z') ∧ z'.heap = h ∧ SEff (AtNode (.heap z.heap.next)) none z z' ∧
      h.next = z.heap.next + 1 := by
  unfold newChild
  by_cases hN : N = D - 2
  · rw [if_pos hN] at e ⊢
    obtain ⟨z', e1, g, f, rfl⟩ := nodeNew_ok e
    exact ⟨z', e1, g, f, (nodeNew_next e).2⟩
  · rw [if_neg hN] at e ⊢
    obtain ⟨x, hx, e⟩ := bind_inv e
    rw [hx, bind_ok]
    obtain ⟨z', e1, g, f, rfl⟩ := nodeNew_ok e
    exact ⟨z', e1, g, f, (nodeNew_next e).2⟩

theorem slot_not_node {s : Slot} {a : Nat} (h : ∀ b d, s = .cell b d → b ≠ a) : ¬ AtNode (.heap a) (slotPlace s) := by
  rintro ⟨l, e⟩
  cases s with
  | root => cases e
  | cell b d =>
    have : b = a := by
      simp only [slotPlace, Place.node.injEq, Ptr.heap.injEq] at e
      exact e.1
    exact h b d rfl this

theorem slot_not_fresh {s : Slot} {h : Heap} {a : Nat} (hs : ∀ b d, s = .cell b d → b ≠ a ∧ b < h.next) :
    ¬ Fresh h a (slotPlace s) := by
  rintro ⟨c, l, e, hc⟩
  cases s with
  | root => cases e
  | cell b d =>
    have : b = c := by
      simp only [slotPlace, Place.node.injEq, Ptr.heap.injEq] at e
      exact e.1
    have := hs b d rfl
    omega

theorem insertStep_ok {D N : Nat} {P : List Nat} {w w' : Dense.Walk} {u : Walk} {b : Bool} (S : Same w u) (hA : Apart w)
    (e : Dense.insertStep D P w N = .ok (w', b)) : ∃ u', insertStep D P u N = .ok (u', b) ∧ Same w' u' := by
  obtain ⟨h, r, s⟩ := w
  obtain ⟨us, ut, z⟩ := u
  obtain ⟨rfl, rfl, rfl, hc⟩ := S
  simp only at hc hA e ⊢
  unfold Dense.insertStep at e
  obtain ⟨i, hi, e⟩ := bind_inv e
  obtain ⟨p, hp, e⟩ := bind_inv e
  simp only at e
  obtain ⟨n, hn, e⟩ := bind_inv e
  obtain ⟨c, hcon, e⟩ := bind_inv e
  obtain ⟨z1, e1, f1⟩ := readSlot_ok hc hp
  have hn1 : deref z1.heap p = .ok n := by rw [f1.heap]; exact hn
  obtain ⟨z2, e2, f2⟩ := headerContains_ok hn1 hcon
  unfold insertStep
  rw [hi, bind_ok]
  simp only
  rw [e1, bind_ok]
  simp only
  rw [e2, bind_ok]
  simp only
  cases c with
  | true =>
    simp only [if_true] at e ⊢
    obtain ⟨⟨a, m⟩, hm7, e7⟩ := bind_inv e
    obtain ⟨rfl, hm⟩ := derefMut_inv hm7
    obtain ⟨d, hd, e8⟩ := bind_inv e7
    cases e8
    simp only at hm hd ⊢
    obtain ⟨z3, t, e3, f3, c3⟩ := getChildMut_ok (z := z2) (by rw [f2.heap, f1.heap]; exact hm) hd
    rw [e3, bind_ok]
    exact ⟨_, rfl, by rw [f3.heap, f2.heap, f1.heap], by rw [f3.root, f2.root, f1.root], rfl, c3⟩
  | false =>
    simp only [Bool.false_eq_true, if_false] at e ⊢
    have hjoin : ∃ h1 child, (if N = D - 2 then Dense.nodeNew z.heap .term defaultCap (.idx 0)
        else do
          let e ← emptyNode (N + 2) D
          Dense.nodeNew z.heap .branch defaultCap (.ptr e)) = .ok (h1, child) ∧
        ∃ h2 d a', Dense.nodeInsert h1 .branch p i (.ptr (.heap child)) = .ok (h2, d, a') ∧
        ∃ w1, (Dense.Walk.mk h2 z.root us).write (.heap a') = .ok w1 ∧
        w' = ⟨w1.heap, w1.root, .cell a' d⟩ ∧ b = false := by
      by_cases hN : N = D - 2
      · rw [if_pos hN] at e ⊢
        obtain ⟨⟨h1, child⟩, ha, e⟩ := bind_inv e
        obtain ⟨⟨h2, d, a'⟩, hb, e⟩ := bind_inv e
        obtain ⟨w1, hw, e⟩ := bind_inv e
        cases e
        exact ⟨h1, child, ha, h2, d, a', hb, w1, hw, rfl, rfl⟩
      · rw [if_neg hN] at e ⊢
        obtain ⟨x, hx, e⟩ := bind_inv e
        obtain ⟨⟨h1, child⟩, ha, e⟩ := bind_inv e
        obtain ⟨⟨h2, d, a'⟩, hb, e⟩ := bind_inv e
        obtain ⟨w1, hw, e⟩ := bind_inv e
        cases e
        rw [hx, bind_ok]
        exact ⟨h1, child, ha, h2, d, a', hb, w1, hw, rfl, rfl⟩
    clear e
    obtain ⟨h1, child, ha, h2, d, a', hb, w1, hw, rfl, rfl⟩ := hjoin
    obtain ⟨a, rfl⟩ := nodeInsert_heap hb
    have hap : ∀ b d, us = .cell b d → b ≠ a ∧ b < z.heap.next := fun b d hs => hA b d a hs hp
    have hz2 : z2.heap = z.heap := by rw [f2.heap, f1.heap]
    rw [← hz2] at ha
    obtain ⟨z3, e3, g3, f3, hnx⟩ := newChild_ok ha
    rw [← g3] at hb
    obtain ⟨z4, a4, ea, e4, g4, f4⟩ := nodeInsert_ok hb
    cases ea
    have c1 := f1.keep _ _ hc
    have c2 := c1.frame f2 (slot_not_node fun b d hs => (hap b d hs).1)
    have c3 := c2.sframe f3 (slot_not_node fun b d hs => by have := (hap b d hs).2; rw [hz2]; omega)
    have c4 := c3.sframe f4 (slot_not_fresh fun b d hs => ⟨(hap b d hs).1, by
      have := (hap b d hs).2; rw [g3, hnx, hz2]; omega⟩)
    have hr4 : z4.root = z.root := by rw [f4.root, f3.root, f2.root, f1.root]
    rw [← g4, ← hr4] at hw
    obtain ⟨z5, e5, g5, r5, -⟩ := writeSlot_ok c4 hw
    obtain ⟨z6, e6, f6, s6⟩ := retag_ok (pm := .uniq) (t := none) (ps := [.node (.heap a') (.cell d)]) (z := z5)
      (fun pl hpl => by rw [List.mem_singleton.1 hpl]; exact Or.inr rfl)
    obtain ⟨s, hs⟩ := s6 _ (List.mem_singleton.2 rfl)
    rw [e3, bind_ok]
    simp only
    rw [e4, bind_ok]
    simp only
    rw [e5, bind_ok]
    rw [e6, bind_ok]
    exact ⟨_, rfl, by rw [f6.heap]; exact g5, by rw [f6.root]; exact r5, rfl, can_top hs (Or.inr rfl)⟩

section
variable {D : Nat} {loc K : List Nat → Option Nat}

theorem apart_of {w : Dense.Walk} (H : TInv D w.heap w.root loc K) {p : List Nat} {a : Nat} (ha : loc p = some a)
    (hs : SlotAt loc (cellsOf D loc K) w.slot p) : Apart w := by
  intro b d c hsl hr
  rw [read_slot H ha hs] at hr
  cases hr
  rw [hsl] at hs
  obtain ⟨q, j, rfl, hq, -⟩ := hs
  refine ⟨?_, H.rep.lt_next hq⟩
  rintro rfl
  exact append_ne_self q j (H.rep.inj _ _ _ ha hq)

/-- The descent of `get_or_insert_impl`. -/
theorem insertWalk_ok {α : Type} {t : DT α} {z : St} (H : TInv D t.heap t.root loc K) (hD : D ≤ 9) (hD1 : 1 ≤ D) {P : List Nat}
    (hP : ValidPath 64 P) (hPD : P.length = D) (hz : z.heap = t.heap) (hr : z.root = t.root) :
    ∃ w u, Dense.insertWalk D t P = .ok w ∧ insertWalk D P z = .ok u ∧ Same w u ∧ Apart w := by
  have key : ∀ (n m : Nat) (w : Dense.Walk) (u : Walk) (loc : List Nat → Option Nat) (a : Nat),
      m + n = D - 1 → TInv D w.heap w.root loc K → loc (P.take m) = some a →
      SlotAt loc (cellsOf D loc K) w.slot (P.take m) → Same w u →
      ∃ w' u', visitList (Dense.insertStep D P) ((List.range n).map (· + m)) w = .ok (w', false) ∧
        visitList (insertStep D P) ((List.range n).map (· + m)) u = .ok (u', false) ∧ Same w' u' ∧ Apart w' := by
    intro n
    induction n with
    | zero =>
      intro m w u loc a hm H ha hs S
      exact ⟨w, u, rfl, rfl, S, apart_of H ha hs⟩
    | succ n ih =>
      intro m w u loc a hm H ha hs S
      obtain ⟨w1, loc1, b1, e1, H1, hb1, hs1, -, -, -⟩ := insertStep_spec H hD hP (by omega) hPD ha hs
      obtain ⟨u1, e1', S1⟩ := insertStep_ok S (apart_of H ha hs) e1
      obtain ⟨w2, u2, e2, e2', S2, A2⟩ := ih (m + 1) w1 u1 loc1 b1 (by omega) H1 hb1 hs1 S1
      have : (List.range n).map ((· + m) ∘ Nat.succ) = (List.range n).map (· + (m + 1)) := by
        apply List.map_congr_left; intro x _; simp; omega
      refine ⟨w2, u2, ?_, ?_, S2, A2⟩
      · rw [List.range_succ_eq_map, List.map_cons, List.map_map]
        simp only [visitList, Nat.zero_add, e1, bind_ok, Bool.false_eq_true, if_false]
        rw [this, e2]
      · rw [List.range_succ_eq_map, List.map_cons, List.map_map]
        simp only [visitList, Nat.zero_add, e1', bind_ok, Bool.false_eq_true, if_false]
        rw [this, e2']
  obtain ⟨a, hr0, hroot⟩ := H.root
  obtain ⟨z1, e1, f1, s1⟩ := retag_ok (pm := .uniq) (t := none) (ps := [.root]) (z := z) (fun pl hpl => by
    rw [List.mem_singleton.1 hpl]; exact Or.inr rfl)
  obtain ⟨s, hs⟩ := s1 _ (List.mem_singleton.2 rfl)
  obtain ⟨w', u', e2, e2', S, A⟩ := key (D - 1) 0 ⟨t.heap, t.root, .root⟩ ⟨.root, some z.next, z1⟩ loc a
    (by omega) H (by simpa using hr0) (by simp [SlotAt])
    ⟨by rw [f1.heap]; exact hz, by rw [f1.root]; exact hr, rfl, can_top hs (Or.inr rfl)⟩
  have hl : rangeFromTo 0 (D - 1) = (List.range (D - 1)).map (· + 0) := rfl
  refine ⟨w', u', ?_, ?_, S, A⟩
  · unfold Dense.insertWalk
    rw [constLoop_eq _ _ _ _ (by omega) (by omega), hl, e2]; rfl
  · unfold insertWalk
    rw [e1, bind_ok]
    simp only
    rw [constLoop_eq _ _ _ _ (by omega) (by omega), hl, e2']; rfl

/-- The tree with borrows holds the tree `t`. -/
structure Holds {α : Type} (t : DT α) (v : Vecs α) (z : St) : Prop where
  heap : z.heap = t.heap
  root : z.root = t.root
  data : v.data = t.data
  keys : v.keys = t.keys

variable {α : Type} {t : DT α} {v : Vecs α} {z : St}

theorem getOrInsertImpl_ok (H : TInv D t.heap t.root loc K) (hD : D ≤ 9) (hD1 : 1 ≤ D) {k : Nat} (hk : k < 64 ^ D)
    (hh : Holds t v z) {ins : Bool} {value : α} {out : Dense.InsOut α}
    (e : Dense.getOrInsertImpl D t k ins value = .ok out) :
    ∃ o, getOrInsertImpl D v k ins value z = .ok o ∧ Holds out.tree o.vecs o.st ∧ o.dataIndex = out.dataIndex ∧
      o.dropped = out.dropped := by
  obtain ⟨vd, vk⟩ := v
  obtain ⟨zh, zr, hd, hks⟩ := hh
  simp only at hd hks
  subst hd
  subst hks
  have hind := levelIndices_ok (k := k) hD1 hD
  obtain ⟨w, u, ew, eu, S, A⟩ := insertWalk_ok (P := path 64 D k) H hD hD1 (validPath_path hk) (by simp) zh zr
  unfold Dense.getOrInsertImpl at e
  unfold getOrInsertImpl
  rw [hind, bind_ok] at e ⊢
  rw [ew, bind_ok] at e
  rw [eu, bind_ok]
  clear zh zr ew eu
  obtain ⟨h, r, s⟩ := w
  obtain ⟨us, ut, z'⟩ := u
  obtain ⟨rfl, rfl, rfl, hc⟩ := S
  simp only at hc A e ⊢
  obtain ⟨p, hp, e⟩ := bind_inv e
  obtain ⟨i, hi, e⟩ := bind_inv e
  obtain ⟨n, hn, e⟩ := bind_inv e
  obtain ⟨c, hcon, e⟩ := bind_inv e
  obtain ⟨z1, e1, f1⟩ := readSlot_ok hc hp
  obtain ⟨z2, e2, f2⟩ := headerContains_ok (z := z1) (by rw [f1.heap]; exact hn) hcon
  rw [e1, bind_ok]
  simp only
  rw [hi, bind_ok, e2, bind_ok]
  simp only
  have hz2 : z2.heap = z'.heap := by rw [f2.heap, f1.heap]
  have hr2 : z2.root = z'.root := by rw [f2.root, f1.root]
  cases c with
  | true =>
    simp only [if_true] at e ⊢
    obtain ⟨cell, hcell, e⟩ := bind_inv e
    obtain ⟨j, hj, e⟩ := bind_inv e
    rw [← hz2] at hcell
    obtain ⟨z3, e3, f3⟩ := getChild_ok hcell
    rw [e3, bind_ok]
    simp only
    rw [hj, bind_ok]
    have hz3 : z3.heap = z'.heap := by rw [f3.heap, hz2]
    have hr3 : z3.root = z'.root := by rw [f3.root, hr2]
    cases ins with
    | true =>
      simp only [if_true] at e ⊢
      obtain ⟨old, ho, e⟩ := bind_inv e
      obtain ⟨old', ho', e⟩ := bind_inv e
      obtain ⟨data, hdata, e⟩ := bind_inv e
      cases e
      rw [ho, bind_ok, ho', bind_ok, hdata, bind_ok]
      exact ⟨_, rfl, ⟨hz3, hr3, rfl, rfl⟩, rfl, rfl⟩
    | false =>
      simp only [Bool.false_eq_true, if_false] at e ⊢
      obtain ⟨old, ho, e⟩ := bind_inv e
      obtain ⟨old', ho', e⟩ := bind_inv e
      cases e
      rw [ho, bind_ok, ho', bind_ok]
      exact ⟨_, rfl, ⟨hz3, hr3, rfl, rfl⟩, rfl, rfl⟩
  | false =>
    simp only [Bool.false_eq_true, if_false] at e ⊢
    obtain ⟨⟨h2, d, a'⟩, hb, e⟩ := bind_inv e
    obtain ⟨w1, hw, e⟩ := bind_inv e
    cases e
    obtain ⟨a, rfl⟩ := nodeInsert_heap hb
    have hap : ∀ b d, us = .cell b d → b ≠ a ∧ b < z'.heap.next := fun b d hs => A b d a hs hp
    rw [← hz2] at hb
    obtain ⟨z3, a3, ea, e3, g3, f3⟩ := nodeInsert_ok hb
    cases ea
    have c1 := f1.keep _ _ hc
    have c2 := c1.frame f2 (slot_not_node fun b d hs => (hap b d hs).1)
    have c3 := c2.sframe f3 (slot_not_fresh fun b d hs => ⟨(hap b d hs).1, by rw [hz2]; exact (hap b d hs).2⟩)
    simp only at hw
    rw [← g3, ← hr2, ← f3.root] at hw
    obtain ⟨z4, e4, g4, r4, -⟩ := writeSlot_ok c3 hw
    rw [e3, bind_ok]
    simp only
    rw [e4, bind_ok]
    exact ⟨_, rfl, ⟨g4, r4, rfl, rfl⟩, rfl, rfl⟩

/-! ## Reading -/

theorem readRoot_ok (z : St) : ∃ z', readRoot z = .ok (z.root, z') ∧ z'.heap = z.heap ∧ z'.root = z.root := by
  obtain ⟨z', e, f⟩ := touch_ok (can_base_root z .read)
  refine ⟨z', ?_, f.heap, f.root⟩
  unfold readRoot
  rw [e, bind_ok, f.root]
  rfl

theorem branchLoop_ok {ind : List Nat} : ∀ (ns : List Nat) (p : Ptr) (z : St) {qs : List Ptr},
    Dense.branchLoop z.heap ind ns p = .ok qs →
    ∃ z', branchLoop ind ns p z = .ok (qs, z') ∧ z'.heap = z.heap ∧ z'.root = z.root
  | [], p, z, qs, e => by cases e; exact ⟨z, rfl, rfl, rfl⟩
  | n :: ns, p, z, qs, e => by
    unfold Dense.branchLoop at e
    obtain ⟨i, hi, e⟩ := bind_inv e
    obtain ⟨c, hc, e⟩ := bind_inv e
    obtain ⟨q, hq, e⟩ := bind_inv e
    obtain ⟨rest, hrest, e⟩ := bind_inv e
    cases e
    obtain ⟨z1, e1, f1⟩ := getChild_ok hc
    rw [← f1.heap] at hrest
    obtain ⟨z2, e2, g2, r2⟩ := branchLoop_ok ns q z1 hrest
    refine ⟨z2, ?_, by rw [g2, f1.heap], by rw [r2, f1.root]⟩
    unfold branchLoop
    rw [hi, bind_ok, e1, bind_ok]
    simp only
    rw [hq, bind_ok, e2, bind_ok]
    rfl

theorem terminalLoop_ok {ind : List Nat} : ∀ (ns : List Nat) (p : Ptr) (z : St) {q : Ptr},
    Dense.terminalLoop z.heap ind ns p = .ok q →
    ∃ z', terminalLoop ind ns p z = .ok (q, z') ∧ z'.heap = z.heap ∧ z'.root = z.root
  | [], p, z, q, e => by cases e; exact ⟨z, rfl, rfl, rfl⟩
  | n :: ns, p, z, q, e => by
    unfold Dense.terminalLoop at e
    obtain ⟨i, hi, e⟩ := bind_inv e
    obtain ⟨c, hc, e⟩ := bind_inv e
    obtain ⟨q', hq, e⟩ := bind_inv e
    obtain ⟨z1, e1, f1⟩ := getChild_ok hc
    rw [← f1.heap] at e
    obtain ⟨z2, e2, g2, r2⟩ := terminalLoop_ok ns q' z1 e
    refine ⟨z2, ?_, by rw [g2, f1.heap], by rw [r2, f1.root]⟩
    unfold terminalLoop
    rw [hi, bind_ok, e1, bind_ok]
    simp only
    rw [hq, bind_ok]
    exact e2

theorem getTerminalNode_ok {ind : List Nat} {z : St} {p : Ptr} {i : Nat}
    (e : Dense.getTerminalNode D z.heap z.root ind = .ok (p, i)) :
    ∃ z', getTerminalNode D ind z = .ok (p, i, z') ∧ z'.heap = z.heap ∧ z'.root = z.root := by
  unfold Dense.getTerminalNode at e
  obtain ⟨q, hq, e⟩ := bind_inv e
  obtain ⟨j, hj, e⟩ := bind_inv e
  cases e
  obtain ⟨z1, e1, g1, r1⟩ := readRoot_ok z
  rw [← g1] at hq
  obtain ⟨z2, e2, g2, r2⟩ := terminalLoop_ok _ _ z1 hq
  refine ⟨z2, ?_, by rw [g2, g1], by rw [r2, r1]⟩
  unfold getTerminalNode
  rw [e1, bind_ok]
  simp only
  rw [e2, bind_ok]
  simp only
  rw [hj, bind_ok]
  rfl

theorem treeData_ok (hh : Holds t v z) {index : Nat} {ind : List Nat} {x : Option α}
    (e : Dense.treeData D t index ind = .ok x) :
    ∃ z', treeData D v index ind z = .ok (x, z') ∧ z'.heap = z.heap ∧ z'.root = z.root := by
  obtain ⟨vd, vk⟩ := v
  obtain ⟨zh, zr, hd, hks⟩ := hh
  simp only at hd hks
  subst hd
  subst hks
  unfold Dense.treeData at e
  rw [← zh, ← zr] at e
  obtain ⟨⟨p, i⟩, hp, e⟩ := bind_inv e
  obtain ⟨c, hc, e⟩ := bind_inv e
  obtain ⟨j, hj, e⟩ := bind_inv e
  obtain ⟨key, hkey, e⟩ := bind_inv e
  obtain ⟨z1, e1, g1, r1⟩ := getTerminalNode_ok hp
  rw [← g1] at hc
  obtain ⟨z2, e2, f2⟩ := getChild_ok hc
  refine ⟨z2, ?_, by rw [f2.heap, g1], by rw [f2.root, r1]⟩
  unfold treeData
  rw [e1, bind_ok]
  simp only
  rw [e2, bind_ok]
  simp only
  rw [hj, bind_ok]
  rw [hkey, bind_ok]
  by_cases hk : key = index
  · rw [if_pos hk] at e ⊢
    obtain ⟨y, hy, e⟩ := bind_inv e
    obtain ⟨y', hy', e⟩ := bind_inv e
    cases e
    rw [hy, bind_ok, hy', bind_ok]
    rfl
  · rw [if_neg hk] at e ⊢
    cases e
    rfl

theorem get_ok (hh : Holds t v z) {index : Nat} {x : Option α} (e : (impl α D).get t index = .ok x) :
    ∃ z', get D v index z = .ok (x, z') ∧ z'.heap = z.heap ∧ z'.root = z.root := by
  unfold Impl.get at e
  obtain ⟨k, hk, e⟩ := bind_inv e
  obtain ⟨ind, hind, e⟩ := bind_inv e
  obtain ⟨z1, e1, g1, r1⟩ := treeData_ok hh e
  refine ⟨z1, ?_, g1, r1⟩
  unfold get
  rw [show indexFrom 1 D index = .ok k from hk, bind_ok, show levelIndices 1 D k = .ok ind from hind, bind_ok]
  exact e1

/-! ## remove -/

theorem climbStep_ok {root : Ptr} {branch : List Ptr} {ind : List Nat} {z : St} {N : Nat} {h : Heap} {b : Bool}
    (hr : z.root = root) (e : Dense.climbStep root branch ind z.heap N = .ok (h, b)) :
    ∃ z', climbStep branch ind z N = .ok (z', b) ∧ z'.heap = h ∧ z'.root = root := by
  obtain ⟨node, i, h1, n, hnode, hi, hrem, hn, hrest⟩ : ∃ node i h1 n,
      (if N = 0 then Except.ok root else getP branch (N - 1)) = Except.ok node ∧ getP ind N = .ok i ∧
      Dense.nodeRemove z.heap .branch node i = .ok h1 ∧ deref h1 node = .ok n ∧
      (if n.len ≠ 1 then (pure (h1, true) : R (Heap × Bool))
        else if N ≠ 0 then do
          let h ← Dense.dropNode h1 .branch node
          return (h, false)
        else return (h1, false)) = .ok (h, b) := by
    unfold Dense.climbStep at e
    by_cases hN : N = 0
    · rw [if_pos hN] at e ⊢
      rw [bind_ok] at e
      obtain ⟨i, hi, e⟩ := bind_inv e
      obtain ⟨h1, h1e, e⟩ := bind_inv e
      obtain ⟨n, hn, e⟩ := bind_inv e
      exact ⟨_, i, h1, n, rfl, hi, h1e, hn, e⟩
    · rw [if_neg hN] at e ⊢
      obtain ⟨p, hp, e⟩ := bind_inv e
      obtain ⟨i, hi, e⟩ := bind_inv e
      obtain ⟨h1, h1e, e⟩ := bind_inv e
      obtain ⟨n, hn, e⟩ := bind_inv e
      exact ⟨p, i, h1, n, hp, hi, h1e, hn, e⟩
  obtain ⟨z1, e1, g1, r1⟩ : ∃ z', climbNode branch N z = .ok (node, z') ∧ z'.heap = z.heap ∧ z'.root = z.root := by
    unfold climbNode
    by_cases hN : N = 0
    · rw [if_pos hN] at hnode ⊢
      cases hnode
      rw [← hr]
      exact readRoot_ok z
    · rw [if_neg hN] at hnode ⊢
      rw [hnode, bind_ok]
      exact ⟨z, rfl, rfl, rfl⟩
  rw [← g1] at hrem
  obtain ⟨z2, e2, g2, f2⟩ := nodeRemove_ok hrem
  rw [← g2] at hn
  obtain ⟨z3, e3, f3⟩ := lenOf_ok hn
  have hr3 : z3.root = root := by rw [f3.root, f2.root, r1]; exact hr
  unfold climbStep
  rw [e1, bind_ok]
  simp only
  rw [hi, bind_ok, e2, bind_ok, e3, bind_ok]
  simp only
  by_cases hl : n.len ≠ 1
  · rw [if_pos hl] at hrest ⊢
    cases hrest
    exact ⟨z3, rfl, by rw [f3.heap, g2], hr3⟩
  · rw [if_neg hl] at hrest ⊢
    by_cases hN : N ≠ 0
    · rw [if_pos hN] at hrest ⊢
      obtain ⟨h2, hd, hrest⟩ := bind_inv hrest
      cases hrest
      rw [← g2, ← f3.heap] at hd
      obtain ⟨z4, e4, g4, f4⟩ := dropNode_ok hd
      rw [e4, bind_ok]
      exact ⟨z4, rfl, g4, by rw [f4.root]; exact hr3⟩
    · rw [if_neg hN] at hrest ⊢
      cases hrest
      exact ⟨z3, rfl, by rw [f3.heap, g2], hr3⟩

theorem visit_climb {root : Ptr} {branch : List Ptr} {ind : List Nat} : ∀ (ns : List Nat) (z : St) {h : Heap} {b : Bool},
    z.root = root → visitList (Dense.climbStep root branch ind) ns z.heap = .ok (h, b) →
    ∃ z', visitList (climbStep branch ind) ns z = .ok (z', b) ∧ z'.heap = h ∧ z'.root = root
  | [], z, h, b, hr, e => by cases e; exact ⟨z, rfl, rfl, hr⟩
  | n :: ns, z, h, b, hr, e => by
    unfold visitList at e
    obtain ⟨⟨h1, b1⟩, h1e, e⟩ := bind_inv e
    obtain ⟨z1, e1, g1, r1⟩ := climbStep_ok hr h1e
    unfold visitList
    rw [e1, bind_ok]
    cases b1 with
    | true =>
      simp only [if_true] at e ⊢
      cases e
      exact ⟨z1, rfl, g1, r1⟩
    | false =>
      simp only [Bool.false_eq_true, if_false] at e ⊢
      rw [← g1] at e
      exact visit_climb ns z1 r1 e

theorem removeCell_ok (hD : D ≤ 9) (hh : Holds t v z) {ind : List Nat} {branch : List Ptr} {p : Ptr} {i : Nat} {h : Heap}
    (e : Dense.removeCell D t ind branch p i = .ok h) :
    ∃ z', removeCell D ind branch p i z = .ok z' ∧ z'.heap = h ∧ z'.root = z.root := by
  unfold Dense.removeCell at e
  rw [← hh.heap] at e
  obtain ⟨h1, h1e, e⟩ := bind_inv e
  obtain ⟨n, hn, e⟩ := bind_inv e
  obtain ⟨z1, e1, g1, f1⟩ := nodeRemove_ok h1e
  rw [← g1] at hn
  obtain ⟨z2, e2, f2⟩ := lenOf_ok hn
  have hr2 : z2.root = z.root := by rw [f2.root, f1.root]
  unfold removeCell
  rw [e1, bind_ok, e2, bind_ok]
  simp only
  by_cases hl : n.len = 1
  · rw [if_pos hl] at e ⊢
    obtain ⟨h2, hd, e⟩ := bind_inv e
    obtain ⟨⟨h3, b⟩, hv, e⟩ := bind_inv e
    cases e
    rw [← g1, ← f2.heap] at hd
    obtain ⟨z3, e3, g3, f3⟩ := dropNode_ok hd
    rw [constLoopRev_eq _ _ _ _ (by omega) (by omega), ← g3] at hv
    obtain ⟨z4, e4, g4, r4⟩ := visit_climb _ z3 (by rw [f3.root, hr2]; exact hh.root) hv
    rw [e3, bind_ok, constLoopRev_eq _ _ _ _ (by omega) (by omega), e4, bind_ok]
    exact ⟨z4, rfl, g4, by rw [r4]; exact hh.root.symm⟩
  · rw [if_neg hl] at e ⊢
    cases e
    exact ⟨z2, rfl, by rw [f2.heap, g1], hr2⟩

theorem removeKey_ok (hh : Holds t v z) {index di : Nat} {t' : DT α} (e : Dense.removeKey D t index di = .ok t') :
    ∃ ks z', removeKey D v.keys index di z = .ok (ks, z') ∧ Holds t' ⟨v.data, ks⟩ z' := by
  unfold Dense.removeKey at e
  obtain ⟨vd, vk⟩ := v
  obtain ⟨zh, zr, hd, hks⟩ := hh
  simp only at hd hks ⊢
  subst hd
  subst hks
  obtain ⟨lk, hlk, e⟩ := bind_inv e
  unfold removeKey
  rw [hlk, bind_ok]
  simp only at e ⊢
  by_cases hl : lk ≠ index
  · rw [if_pos hl] at e ⊢
    obtain ⟨ks, hks, e⟩ := bind_inv e
    obtain ⟨ind, hind, e⟩ := bind_inv e
    rw [← zh, ← zr] at e
    obtain ⟨⟨p, i⟩, hp, e⟩ := bind_inv e
    obtain ⟨h, hh, e⟩ := bind_inv e
    cases e
    obtain ⟨z1, e1, g1, r1⟩ := getTerminalNode_ok hp
    simp only at hh
    rw [← g1] at hh
    obtain ⟨z2, e2, g2, f2⟩ := setChild_ok hh
    rw [hks, bind_ok, hind, bind_ok, e1, bind_ok]
    simp only
    rw [e2, bind_ok]
    exact ⟨ks, z2, rfl, g2, by rw [f2.root, r1], rfl, rfl⟩
  · rw [if_neg hl] at e ⊢
    cases e
    exact ⟨_, z, rfl, zh, zr, rfl, rfl⟩

theorem remove_ok (hD : D ≤ 9) (hh : Holds t v z) {index : Nat} {t' : DT α} {x : Option α}
    (e : Dense.remove D t index = .ok (t', x)) :
    ∃ v' z', remove D v index z = .ok (v', x, z') ∧ Holds t' v' z' := by
  unfold Dense.remove at e
  obtain ⟨k, hk, e⟩ := bind_inv e
  obtain ⟨ind, hind, e⟩ := bind_inv e
  obtain ⟨br, hbr, e⟩ := bind_inv e
  obtain ⟨p, hp, e⟩ := bind_inv e
  obtain ⟨i, hi, e⟩ := bind_inv e
  obtain ⟨c, hc, e⟩ := bind_inv e
  obtain ⟨di, hdi, e⟩ := bind_inv e
  obtain ⟨key, hkey, e⟩ := bind_inv e
  obtain ⟨z1, e1, g1, r1⟩ := readRoot_ok z
  unfold getBranch at hbr
  rw [← hh.heap, ← g1, ← hh.root] at hbr
  obtain ⟨z2, e2, g2, r2⟩ := branchLoop_ok _ _ z1 hbr
  rw [← hh.heap, ← g1, ← g2] at hc
  obtain ⟨z3, e3, f3⟩ := getChild_ok hc
  have hh3 : Holds t v z3 := ⟨by rw [f3.heap, g2, g1]; exact hh.heap, by rw [f3.root, r2, r1]; exact hh.root, hh.data, hh.keys⟩
  unfold remove
  rw [hk, bind_ok, hind, bind_ok, e1, bind_ok]
  simp only
  rw [e2, bind_ok]
  simp only
  rw [hp, bind_ok, hi, bind_ok, e3, bind_ok]
  simp only
  rw [hdi, bind_ok, hh.keys, hkey, bind_ok]
  by_cases he : key = k
  · rw [if_pos he] at e ⊢
    obtain ⟨h, hcell, e⟩ := bind_inv e
    obtain ⟨t1, ht1, e⟩ := bind_inv e
    obtain ⟨⟨y, data⟩, hy, e⟩ := bind_inv e
    cases e
    obtain ⟨z4, e4, g4, r4⟩ := removeCell_ok hD hh3 hcell
    obtain ⟨ks, z5, e5, hh5⟩ := removeKey_ok (t := { t with heap := h }) (v := v) (z := z4)
      ⟨g4, by rw [r4]; exact hh3.root, hh.data, hh.keys⟩ ht1
    rw [hh.keys] at e5
    have hd5 : v.data = t1.data := hh5.data
    rw [e4, bind_ok, e5, bind_ok]
    simp only
    rw [hd5, hy, bind_ok]
    exact ⟨_, z5, rfl, hh5.heap, hh5.root, rfl, hh5.keys⟩
  · rw [if_neg he] at e ⊢
    cases e
    exact ⟨v, z3, rfl, hh3⟩

end

/-! ## Creation and drop -/

theorem default_ok {α : Type} {D : Nat} {t : DT α} (e : Dense.default α D = .ok t) :
    ∃ v z, default α D = .ok (v, z) ∧ Holds t v z := by
  unfold Dense.default at e
  unfold default
  simp only at e ⊢
  by_cases hD : D = 1
  · rw [if_pos hD] at e ⊢
    obtain ⟨⟨h, a⟩, ha, e⟩ := bind_inv e
    cases e
    obtain ⟨z', e1, g1, f1, -⟩ := nodeNew_ok (z := ⟨⟨fun _ => none, 0⟩, .stat 0, fun _ => [], 0⟩) ha
    rw [e1, bind_ok]
    exact ⟨_, _, rfl, g1, rfl, rfl, rfl⟩
  · rw [if_neg hD] at e ⊢
    obtain ⟨x, hx, e⟩ := bind_inv e
    obtain ⟨⟨h, a⟩, ha, e⟩ := bind_inv e
    cases e
    obtain ⟨z', e1, g1, f1, -⟩ := nodeNew_ok (z := ⟨⟨fun _ => none, 0⟩, .stat 0, fun _ => [], 0⟩) ha
    rw [hx, bind_ok, e1, bind_ok]
    exact ⟨_, _, rfl, g1, rfl, rfl, rfl⟩

theorem dropNodeWithChilds_ok : ∀ (r : Nat) (p : Ptr) (z : St) {h : Heap}, Dense.dropNodeWithChilds r z.heap p = .ok h →
    ∃ z', dropNodeWithChilds r p z = .ok z' ∧ z'.heap = h ∧ z'.root = z.root
  | 0, _, _, _, e => by cases e
  | 1, p, z, h, e => by
    unfold Dense.dropNodeWithChilds at e
    obtain ⟨z1, e1, g1, f1⟩ := dropNode_ok e
    exact ⟨z1, e1, g1, f1.root⟩
  | r + 2, p, z, h, e => by
    unfold Dense.dropNodeWithChilds at e
    obtain ⟨n, hn, e⟩ := bind_inv e
    obtain ⟨h1, hf, e⟩ := bind_inv e
    obtain ⟨a, rfl⟩ : ∃ a, p = .heap a := by
      unfold Dense.dropNode at e
      obtain ⟨x, hx, -⟩ := bind_inv e
      exact ⟨_, (derefMut_inv hx).1⟩
    obtain ⟨z1, e1, f1⟩ := maskOf_ok hn
    have loop : ∀ (l : List Nat) (z : St) {h1 : Heap}, l.foldlM (fun h i => do
          let c ← Dense.getChild h (.heap a) i
          let q ← c.asPtr
          Dense.dropNodeWithChilds (r + 1) h q) z.heap = .ok h1 →
        ∃ z', l.foldlM (fun z i => do
          let (d, t, z) ← getChildMut (.heap a) i z
          let (c, z) ← readCell (.heap a) d t z
          let q ← c.asPtr
          dropNodeWithChilds (r + 1) q z) z = .ok z' ∧ z'.heap = h1 ∧ z'.root = z.root := by
      intro l
      induction l with
      | nil => intro z h1 e; cases e; exact ⟨z, rfl, rfl, rfl⟩
      | cons i l ih =>
        intro z h1 e
        rw [List.foldlM_cons] at e ⊢
        obtain ⟨h2, h2e, e⟩ := bind_inv e
        obtain ⟨c, hc, h2e⟩ := bind_inv h2e
        obtain ⟨q, hq, h2e⟩ := bind_inv h2e
        unfold Dense.getChild at hc
        obtain ⟨m, hm, hc⟩ := bind_inv hc
        obtain ⟨d, hd, hc⟩ := bind_inv hc
        have hm : z.heap.node a = some m := by
          simp only [deref] at hm
          exact unwrapU_inv hm
        obtain ⟨z1, t, e1, f1, c1⟩ := getChildMut_ok hm hd
        obtain ⟨z2, e2, f2⟩ := readCell_ok (z := z1) c1.read (deref_heap (by rw [f1.heap]; exact hm)) hc
        rw [← f1.heap, ← f2.heap] at h2e
        obtain ⟨z3, e3, g3, r3⟩ := dropNodeWithChilds_ok (r + 1) q z2 h2e
        rw [← g3] at e
        obtain ⟨z4, e4, g4, r4⟩ := ih z3 e
        refine ⟨z4, ?_, g4, by rw [r4, r3, f2.root, f1.root]⟩
        rw [e1, bind_ok]
        simp only
        rw [e2, bind_ok]
        simp only
        rw [hq, bind_ok, e3, bind_ok]
        exact e4
    rw [← f1.heap] at hf
    obtain ⟨z2, e2, g2, r2⟩ := loop _ z1 hf
    rw [← g2] at e
    obtain ⟨z3, e3, g3, f3⟩ := dropNode_ok e
    refine ⟨z3, ?_, g3, by rw [f3.root, r2, f1.root]⟩
    unfold dropNodeWithChilds
    rw [e1, bind_ok]
    simp only
    rw [e2, bind_ok]
    exact e3

theorem dropImpl_ok {α : Type} {D : Nat} {t : DT α} {v : Vecs α} {z : St} (hh : Holds t v z) {vs : List α} {h : Heap}
    (e : Dense.dropImpl D t = .ok (vs, h)) : ∃ z', dropImpl D v z = .ok (vs, z') ∧ z'.heap = h := by
  unfold Dense.dropImpl at e
  unfold dropImpl
  rw [hh.data]
  by_cases hl : 1 ≤ t.data.length
  · rw [if_pos hl] at e ⊢
    obtain ⟨vs', hvs, e⟩ := bind_inv e
    obtain ⟨h', hh', e⟩ := bind_inv e
    cases e
    obtain ⟨z1, e1, g1, r1⟩ := readRoot_ok z
    rw [← hh.heap, ← g1, ← hh.root] at hh'
    obtain ⟨z2, e2, g2, -⟩ := dropNodeWithChilds_ok D _ z1 hh'
    rw [hvs, bind_ok, e1, bind_ok]
    simp only
    rw [e2, bind_ok]
    exact ⟨z2, rfl, g2⟩
  · rw [if_neg hl] at e; cases e

/-! ## Histories -/

theorem step_ok {α : Type} {ex : List Nat → Prop} {D : Nat} {t t' : DT α} {M : Nat → Option α} (R : DRep ex D t M)
    (h1 : 1 ≤ D) (h9 : D ≤ 9) {v : Vecs α} {z : St} (hh : Holds t v z) {op : Op α} (hr : op.InRange (64 ^ D))
    {o : Option α × List α} (e : Dense.step D t op = .ok (t', o)) :
    ∃ v' z', step D v z op = .ok (v', o, z') ∧ Holds t' v' z' := by
  obtain ⟨loc, K, S⟩ := R
  cases op with
  | insert k x =>
    simp only [Dense.step] at e
    obtain ⟨out, he, e⟩ := bind_inv e
    cases e
    unfold Dense.insert at he
    have hk : indexFrom 1 D k = .ok k := by
      rw [indexFrom_ok h9, if_pos (show k < 64 ^ D from hr)]
    rw [hk, bind_ok] at he
    obtain ⟨r, e1, hh1, -, hd⟩ := getOrInsertImpl_ok S.tree h9 h1 hr hh he
    refine ⟨r.vecs, r.st, ?_, hh1⟩
    simp only [step]
    rw [hk, bind_ok, e1, bind_ok, hd]
    rfl
  | getOrInsert k x g =>
    simp only [Dense.step] at e
    obtain ⟨out, he, e⟩ := bind_inv e
    unfold Dense.getOrInsert at he
    have hk : indexFrom 1 D k = .ok k := by
      rw [indexFrom_ok h9, if_pos (show k < 64 ^ D from hr)]
    rw [hk, bind_ok] at he
    obtain ⟨r, e1, hh1, hdi, hd⟩ := getOrInsertImpl_ok S.tree h9 h1 hr hh he
    obtain ⟨⟨t2, y⟩, hw, e⟩ := bind_inv e
    unfold writeRef at hw
    obtain ⟨old, ho, hw⟩ := bind_inv hw
    obtain ⟨old', ho', hw⟩ := bind_inv hw
    obtain ⟨data, hdata, hw⟩ := bind_inv hw
    cases hw
    cases e
    refine ⟨{ r.vecs with data := data }, r.st, ?_, hh1.heap, hh1.root, rfl, hh1.keys⟩
    simp only [step]
    rw [hk, bind_ok, e1, bind_ok, hdi, hh1.data, ho, bind_ok, ho', bind_ok, hdata, bind_ok, hd]
    rfl
  | remove k =>
    simp only [Dense.step] at e
    obtain ⟨⟨t2, y⟩, he, e⟩ := bind_inv e
    cases e
    obtain ⟨v', z', e1, hh1⟩ := remove_ok h9 hh he
    refine ⟨v', z', ?_, hh1⟩
    simp only [step]
    rw [e1, bind_ok]
    rfl
  | get k =>
    simp only [Dense.step] at e
    obtain ⟨y, he, e⟩ := bind_inv e
    cases e
    obtain ⟨z', e1, g1, r1⟩ := get_ok hh he
    refine ⟨v, z', ?_, by rw [g1]; exact hh.heap, by rw [r1]; exact hh.root, hh.data, hh.keys⟩
    simp only [step]
    rw [e1, bind_ok]
    rfl
  | mutValues g =>
    simp only [Dense.step] at e
    obtain ⟨t2, he, e⟩ := bind_inv e
    cases e
    unfold mutValues keyValues at he
    by_cases hl : 1 ≤ t.keys.length ∧ 1 ≤ t.data.length
    · rw [if_pos hl, bind_ok] at he
      cases he
      refine ⟨{ v with data := t.data.take 1 ++ List.zipWith (fun k x => x.map (g k)) (t.keys.drop 1) (t.data.drop 1) },
        z, ?_, hh.heap, hh.root, rfl, hh.keys⟩
      simp only [step]
      rw [hh.keys, hh.data, if_pos hl]
    · rw [if_neg hl] at he; cases he

end Hibit.Alias
