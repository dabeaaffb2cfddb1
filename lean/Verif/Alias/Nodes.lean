import Verif.Alias.Lemmas
/-!
# Node operations obey the aliasing rules
-/
namespace Hibit.Alias
open Hibit Hibit.Dense

/-- As `Eff`, but the nodes may have changed. -/
structure SEff (S : Place → Prop) (t : Tag) (z z' : St) : Prop where
  root : z'.root = z.root
  frame : ∀ pl, ¬ S pl → z'.stk pl = z.stk pl
  keep : ∀ w pl, Can z pl w t → Can z' pl w t

theorem Eff.s {S : Place → Prop} {t : Tag} {z z' : St} (h : Eff S t z z') : SEff S t z z' := ⟨h.root, h.frame, h.keep⟩

theorem SEff.trans {S : Place → Prop} {t : Tag} {z z1 z2 : St} (h : SEff S t z z1) (h' : SEff S t z1 z2) : SEff S t z z2 :=
  ⟨h'.root.trans h.root, fun pl hp => (h'.frame pl hp).trans (h.frame pl hp),
    fun w pl hc => h'.keep w pl (h.keep w pl hc)⟩

theorem SEff.mono {S S' : Place → Prop} {t : Tag} {z z1 : St} (h : SEff S t z z1) (hs : ∀ pl, S pl → S' pl) : SEff S' t z z1 :=
  ⟨h.root, fun pl hp => h.frame pl fun hq => hp (hs pl hq), h.keep⟩

theorem SEff.base {S : Place → Prop} {t : Tag} {z z1 : St} (h : SEff S t z z1) : SEff S none z z1 :=
  ⟨h.root, h.frame, fun _ _ hc => hc⟩

theorem Can.sframe {S : Place → Prop} {t t' : Tag} {z z' : St} (h : SEff S t z z') {pl : Place} (hp : ¬ S pl) {w : Acc}
    (hc : Can z pl w t') : Can z' pl w t' := by
  cases t' with
  | none => exact hc
  | some t' => unfold Can at hc ⊢; rw [h.frame pl hp]; exact hc

/-- Effects on other places than those allowed through `t`. -/
theorem SEff.other {S S' : Place → Prop} {t t' : Tag} {z z1 : St} (h : SEff S t z z1)
    (hs : ∀ pl, S pl → ¬ S' pl) : ∀ w pl, S' pl → Can z pl w t' → Can z1 pl w t' :=
  fun _ pl hp hc => hc.sframe h fun hq => hs pl hq hp

theorem put_put (h : Heap) (a : Nat) (n n' : Node) : (h.put a n).put a n' = h.put a n' := by
  unfold Heap.put
  simp only [Heap.mk.injEq, and_true]
  funext x
  unfold upd
  by_cases e : x = a
  · rw [if_pos e, if_pos e]
  · simp only [if_neg e]

theorem put_node (h : Heap) (a : Nat) (n : Node) : (h.put a n).node a = some n := by simp [Heap.put]

section
variable {a : Nat} {z : St} {n : Node} {t : Tag}

/-! ## Writes -/

theorem writeMask_ok (hn : z.heap.node a = some n) (hc : Can z (.node (.heap a) .mask) .write t) (m : Word) :
    ∃ z', writeMask (.heap a) t m z = .ok z' ∧ z'.heap = z.heap.put a { n with mask := m } ∧
      SEff (· = .node (.heap a) .mask) t z z' := by
  obtain ⟨z1, e, f⟩ := touch_ok hc
  refine ⟨{ z1 with heap := z1.heap.put a { n with mask := m } }, ?_, by rw [f.heap], f.root, f.frame, ?_⟩
  · unfold writeMask
    rw [e, bind_ok, derefMut_heap (by rw [f.heap]; exact hn), bind_ok]
    rfl
  · intro w pl h; have := f.keep w pl h; cases t <;> exact this

theorem writeCap_ok (hn : z.heap.node a = some n) (hc : Can z (.node (.heap a) .cap) .write t) (c : Nat) :
    ∃ z', writeCap (.heap a) t c z = .ok z' ∧ z'.heap = z.heap.put a { n with cap := c } ∧
      SEff (· = .node (.heap a) .cap) t z z' := by
  obtain ⟨z1, e, f⟩ := touch_ok hc
  refine ⟨{ z1 with heap := z1.heap.put a { n with cap := c } }, ?_, by rw [f.heap], f.root, f.frame, ?_⟩
  · unfold writeCap
    rw [e, bind_ok, derefMut_heap (by rw [f.heap]; exact hn), bind_ok]
    rfl
  · intro w pl h; have := f.keep w pl h; cases t <;> exact this

theorem writeLen_ok (hn : z.heap.node a = some n) (hc : Can z (.node (.heap a) .len) .write t) (l : Nat) :
    ∃ z', writeLen (.heap a) t l z = .ok z' ∧ z'.heap = z.heap.put a { n with len := l } ∧
      SEff (· = .node (.heap a) .len) t z z' := by
  obtain ⟨z1, e, f⟩ := touch_ok hc
  refine ⟨{ z1 with heap := z1.heap.put a { n with len := l } }, ?_, by rw [f.heap], f.root, f.frame, ?_⟩
  · unfold writeLen
    rw [e, bind_ok, derefMut_heap (by rw [f.heap]; exact hn), bind_ok]
    rfl
  · intro w pl h; have := f.keep w pl h; cases t <;> exact this

theorem writeCell_ok (hn : z.heap.node a = some n) {d : Nat} (hc : Can z (.node (.heap a) (.cell d)) .write t) {c : Cell}
    {cells : List Cell} (hs : setU n.cells d c = .ok cells) :
    ∃ z', writeCell (.heap a) d t c z = .ok z' ∧ z'.heap = z.heap.put a { n with cells := cells } ∧
      SEff (· = .node (.heap a) (.cell d)) t z z' := by
  obtain ⟨z1, e, f⟩ := touch_ok hc
  refine ⟨{ z1 with heap := z1.heap.put a { n with cells := cells } }, ?_, by rw [f.heap], f.root, f.frame, ?_⟩
  · unfold writeCell
    rw [e, bind_ok, derefMut_heap (by rw [f.heap]; exact hn), bind_ok]
    simp only
    rw [hs, bind_ok]
    rfl
  · intro w pl h; have := f.keep w pl h; cases t <;> exact this

theorem checkKind_ok {k : Kind} (hn : z.heap.node a = some n) (hk : n.kind = k) : checkKind (.heap a) k z = .ok () := by
  unfold checkKind
  rw [derefMut_heap hn, bind_ok]
  simp [hk]

/-- `copyCells` touches cells only. -/
theorem copyCells_ok (hn : z.heap.node a = some n) {src dst cnt : Nat} {cells : List Cell}
    (hs : Dense.copyCells n.cells src dst cnt = .ok cells) :
    ∃ z', copyCells (.heap a) src dst cnt z = .ok z' ∧ z'.heap = z.heap.put a { n with cells := cells } ∧
      SEff (fun pl => ∃ d, pl = .node (.heap a) (.cell d)) none z z' := by
  have hm : ∀ s, ∀ pl ∈ (List.range cnt).map (fun i => Place.node (.heap a) (.cell (s + i))),
      ∃ d, pl = .node (.heap a) (.cell d) := by
    intro s pl hp
    obtain ⟨i, -, rfl⟩ := List.mem_map.1 hp
    exact ⟨_, rfl⟩
  obtain ⟨z1, e1, f1⟩ := touchAll_ok (w := .read) _ z fun pl hp => have ⟨_, e⟩ := hm src pl hp; ⟨_, e⟩
  obtain ⟨z2, e2, f2⟩ := touchAll_ok (w := .write) _ z1 fun pl hp => have ⟨_, e⟩ := hm dst pl hp; ⟨_, e⟩
  have hh : z2.heap = z.heap := by rw [f2.heap, f1.heap]
  have f := (f1.mono (S' := fun pl => ∃ d, pl = .node (.heap a) (.cell d)) (hm src)).trans (f2.mono (hm dst))
  refine ⟨{ z2 with heap := z2.heap.put a { n with cells := cells } }, ?_, by rw [hh], f.root, f.frame, fun _ _ h => h⟩
  unfold copyCells
  rw [e1, bind_ok, e2, bind_ok, derefMut_heap (by rw [hh]; exact hn), bind_ok]
  simp only
  rw [hs, bind_ok]
  rfl

/-- `set_bit_unchecked(&mut header.mask, ..)`: the header may still be used afterwards. -/
theorem setBit_ok {b : Bool} {index : Nat} {r : Bool} {m : Word} (hn : z.heap.node a = some n)
    (hc : Can z (.node (.heap a) .mask) .write t) (hb : setBitUnchecked b n.mask index = .ok (r, m)) :
    ∃ z', setBit b (.heap a) t index z = .ok z' ∧ z'.heap = z.heap.put a { n with mask := m } ∧
      SEff (· ∈ hdr (.heap a)) t z z' := by
  obtain ⟨z1, e1, f1, s1⟩ := retag_ok (pm := .uniq) (t := t) (ps := [.node (.heap a) .mask]) (z := z) (fun pl hp => by
    rw [List.mem_singleton.1 hp]; exact hc)
  obtain ⟨s, hs⟩ := s1 _ (List.mem_singleton.2 rfl)
  have hn1 : z1.heap.node a = some n := by rw [f1.heap]; exact hn
  refine ⟨{ z1 with heap := z1.heap.put a { n with mask := m } }, ?_, by rw [f1.heap], f1.root, ?_, ?_⟩
  · unfold setBit
    rw [e1, bind_ok]
    simp only
    rw [readMask_top hs (deref_heap hn1), bind_ok]
    simp only
    rw [hb, bind_ok]
    simp only
    have hw : writeMask (.heap a) (some z.next) m z1 = .ok { z1 with heap := z1.heap.put a { n with mask := m } } := by
      unfold writeMask
      rw [touch_top hs (by simp [Item.grants]), bind_ok, derefMut_heap hn1, bind_ok]
      rfl
    rw [hw, bind_ok, leave_top (pm := .uniq) (t := z.next) (ps := [.node (.heap a) .mask])
      (z := { z1 with heap := z1.heap.put a { n with mask := m } }) s1]
    rfl
  · intro pl hp
    exact f1.frame pl fun h => hp (by rw [List.mem_singleton.1 h]; exact mask_hdr _)
  · intro w pl h; have := f1.keep w pl h; cases t <;> exact this

end

/-! ## Allocation -/

/-- Only the block `a` and blocks not in the heap before have been touched. -/
def Fresh (h : Heap) (a : Nat) (pl : Place) : Prop := ∃ b l, pl = .node (.heap b) l ∧ (b = a ∨ h.next ≤ b)

theorem alloc_eff (n : Node) (z : St) : (alloc n z).1 = z.heap.next ∧ (alloc n z).2.heap = (z.heap.alloc n).1 ∧
    SEff (AtNode (.heap z.heap.next)) none z (alloc n z).2 := by
  refine ⟨rfl, rfl, rfl, ?_, fun _ _ h => h⟩
  intro pl hp
  unfold alloc
  simp only
  split
  · next x l =>
    split
    · next e => exact absurd ⟨l, by rw [e]; rfl⟩ hp
    · rfl
  · rfl

theorem alloc_node (h : Heap) (n : Node) : (h.alloc n).1.node h.next = some n := by simp [Heap.alloc]

theorem alloc_put (h : Heap) (n n' : Node) : (h.alloc n).1.put h.next n' = (h.alloc n').1 := by
  unfold Heap.alloc Heap.put
  simp only [Heap.mk.injEq, and_true]
  funext x
  unfold upd
  by_cases e : x = h.next
  · rw [if_pos e, if_pos e]
  · simp only [if_neg e]

theorem nodeNew_ok {k : Kind} {cap : Nat} {c : Cell} {z : St} {h : Heap} {a : Nat}
    (e : Dense.nodeNew z.heap k cap c = .ok (h, a)) :
    ∃ z', nodeNew k cap c z = .ok (a, z') ∧ z'.heap = h ∧ SEff (AtNode (.heap a)) none z z' ∧ a = z.heap.next := by
  unfold Dense.nodeNew at e
  split at e
  · next hcap =>
    obtain ⟨a0, a1, a2⟩ := alloc_eff ⟨k, 0, 0, 0, List.replicate cap .uninit⟩ z
    have ha : a = z.heap.next := by
      have := congrArg (fun r : R (Heap × Nat) => r.map (fun x => x.2)) e
      simp only [Except.map, Except.ok.injEq] at this
      exact this.symm
    generalize hz0 : (alloc ⟨k, 0, 0, 0, List.replicate cap .uninit⟩ z) = r0 at a0 a1 a2
    obtain ⟨a', z0⟩ := r0
    simp only at a0 a1 a2
    subst a0
    have n0 := alloc_node z.heap ⟨k, 0, 0, 0, List.replicate cap .uninit⟩
    rw [← a1] at n0
    obtain ⟨z1, e1, h1, f1⟩ := writeMask_ok n0 (t := none) (Or.inr rfl) 0
    have n1 : z1.heap.node z.heap.next = some ⟨k, 0, 0, 0, List.replicate cap .uninit⟩ := by rw [h1]; exact put_node _ _ _
    obtain ⟨z2, e2, h2, f2⟩ := writeCap_ok n1 (t := none) (Or.inr rfl) cap
    have n2 : z2.heap.node z.heap.next = some ⟨k, 0, cap, 0, List.replicate cap .uninit⟩ := by rw [h2]; exact put_node _ _ _
    obtain ⟨z3, e3, h3, f3⟩ := writeLen_ok n2 (t := none) (Or.inr rfl) 1
    have n3 : z3.heap.node z.heap.next = some ⟨k, 0, cap, 1, List.replicate cap .uninit⟩ := by rw [h3]; exact put_node _ _ _
    obtain ⟨z4, e4, h4, f4⟩ := writeCell_ok n3 (t := none) (d := 0) (c := c)
      (cells := c :: List.replicate (cap - 1) .uninit) (Or.inr rfl) (by
        unfold setU
        obtain ⟨m, rfl⟩ : ∃ m, cap = m + 1 := ⟨cap - 1, by omega⟩
        simp [List.replicate_succ])
    refine ⟨z4, ?_, ?_, ?_, ha⟩
    · unfold nodeNew
      rw [hz0]
      simp only
      rw [e1, bind_ok, if_pos hcap, e2, bind_ok, e3, bind_ok, e4, bind_ok, ha]
      rfl
    · rw [h4, h3, h2, h1, put_put, put_put, put_put, a1, alloc_put]
      have := congrArg (fun r : R (Heap × Nat) => r.map (fun x => x.1)) e
      simp only [Except.map, Except.ok.injEq] at this
      exact this
    · subst ha
      exact (((a2.trans (f1.mono fun q hq => ⟨_, hq⟩)).trans (f2.mono fun q hq => ⟨_, hq⟩)).trans
        (f3.mono fun q hq => ⟨_, hq⟩)).trans (f4.mono fun q hq => ⟨_, hq⟩)
  · cases e

theorem dealloc_ok {a cap : Nat} {k : Kind} {z : St} {h : Heap} (e : z.heap.dealloc a k cap = .ok h) :
    ∃ z', dealloc (.heap a) k cap z = .ok z' ∧ z'.heap = h ∧ SEff (AtNode (.heap a)) none z z' := by
  have e0 := e
  unfold Heap.dealloc at e0
  obtain ⟨n, hn, -⟩ := bind_inv e0
  have hn := unwrapU_inv hn
  have hp : ∀ pl ∈ places (.heap a) n.cells.length, AtNode (.heap a) pl := by
    intro pl hpl
    rcases List.mem_append.1 hpl with h | h
    · exact hdr_node h
    · obtain ⟨d, -, rfl⟩ := List.mem_map.1 h
      exact ⟨_, rfl⟩
  obtain ⟨z1, e1, f1⟩ := touchAll_ok (w := .write) _ z hp
  refine ⟨{ z1 with heap := h }, ?_, rfl, f1.root, fun pl hq => f1.frame pl fun h => hq (hp pl h), fun _ _ h => h⟩
  unfold dealloc
  rw [derefMut_heap hn, bind_ok]
  simp only
  rw [e1, bind_ok, f1.heap, e, bind_ok]
  rfl

/-- `realloc` of a full node. -/
theorem nodeGrow_ok {k : Kind} {a a' : Nat} {z : St} {n n' : Node} {h : Heap} (hn : z.heap.node a = some n)
    (e : Dense.nodeGrow z.heap k a n = .ok (h, a', n')) :
    ∃ z', nodeGrow k (.heap a) z = .ok (.heap a', z') ∧ z'.heap = h ∧ SEff (Fresh z.heap a) none z z' ∧
      h.node a' = some n' ∧ (a' = a ∨ a' = z.heap.next) := by
  obtain ⟨z1, e1, f1, s1⟩ := header_ok (.heap a) z
  have hn1 : z1.heap.node a = some n := by rw [f1.heap]; exact hn
  obtain ⟨s, hs⟩ := s1 _ (cap_hdr _)
  obtain ⟨s', hs'⟩ := s1 _ (len_hdr _)
  have g1 : SEff (Fresh z.heap a) none z z1 := f1.s.mono fun q hq => by
    obtain ⟨l, rfl⟩ := hdr_node hq
    exact ⟨a, l, rfl, Or.inl rfl⟩
  unfold Dense.nodeGrow at e
  unfold nodeGrow
  rw [e1, bind_ok]
  simp only
  rw [readCap_top hs (deref_heap hn1), bind_ok]
  simp only
  rw [readLen_top hs' (deref_heap hn1), bind_ok]
  simp only
  by_cases hl : n.len = n.cap
  · rw [if_pos hl] at e ⊢
    by_cases hc : n.cap * 2 < 256
    · rw [if_pos hc] at e ⊢
      rw [bind_ok] at e ⊢
      obtain ⟨h1, hd, e⟩ := bind_inv e
      rw [derefMut_heap hn1, bind_ok]
      simp only
      rw [← f1.heap] at hd
      obtain ⟨z2, e2, h2, f2⟩ := dealloc_ok hd
      rw [e2, bind_ok]
      generalize hnn : ({ n with cells := n.cells ++ List.replicate (n.cap * 2 - n.cells.length) Cell.uninit } : Node) = nn
      obtain ⟨a0, a1, a2⟩ := alloc_eff nn z2
      have hnx : h1.next = z.heap.next := by
        unfold Heap.dealloc at hd
        obtain ⟨m, hm, hd⟩ := bind_inv hd
        split at hd
        · cases hd; show z1.heap.next = z.heap.next; rw [f1.heap]
        · cases hd
      generalize hz0 : (alloc nn z2) = r0 at a0 a1 a2
      obtain ⟨b, z3⟩ := r0
      simp only at a0 a1 a2
      have n3 := alloc_node z2.heap nn
      rw [← a1, ← a0] at n3
      obtain ⟨z4, e4, h4, f4⟩ := writeCap_ok n3 (t := none) (Or.inr rfl) (n.cap * 2)
      rw [e4, bind_ok]
      cases e
      subst a0
      refine ⟨z4, ?_, ?_, ?_, ?_, Or.inr hnx⟩
      · rw [h2]; rfl
      · rw [h4, a1, alloc_put, h2, ← hnn]; rfl
      · refine ((g1.trans (f2.mono fun q hq => ?_)).trans (a2.mono fun q hq => ?_)).trans (f4.mono fun q hq => ?_)
        · obtain ⟨l, rfl⟩ := hq; exact ⟨_, _, rfl, Or.inl rfl⟩
        · obtain ⟨l, rfl⟩ := hq; exact ⟨_, _, rfl, Or.inr (by rw [h2, hnx]; exact Nat.le_refl _)⟩
        · rw [hq]; exact ⟨_, _, rfl, Or.inr (by rw [h2, hnx]; exact Nat.le_refl _)⟩
      · exact alloc_node _ _
    · rw [if_neg hc] at e; cases e
  · rw [if_neg hl] at e ⊢
    cases e
    exact ⟨z1, rfl, f1.heap, g1, hn, Or.inl rfl⟩

/-! ## insert and remove -/

theorem headerMut_ok (a : Nat) (z : St) : ∃ z', headerMut (.heap a) z = .ok (some z.next, z') ∧
    Eff (· ∈ hdr (.heap a)) none z z' ∧ ∀ pl ∈ hdr (.heap a), Can z' pl .write (some z.next) := by
  obtain ⟨z', e, f, s⟩ := retag_ok (pm := .uniq) (t := none) (ps := hdr (.heap a)) (z := z) fun pl hp => by
    obtain ⟨l, rfl⟩ := hdr_node hp; exact Or.inr rfl
  exact ⟨z', e, f, fun pl hp => have ⟨_, hs⟩ := s pl hp; can_top hs (Or.inr rfl)⟩

theorem hdr_not_cell {p : Ptr} {pl : Place} (h : pl ∈ hdr p) : ¬ ∃ d, pl = .node p (.cell d) := by
  rintro ⟨d, rfl⟩
  simp [hdr] at h

theorem nodeInsert_ok {k : Kind} {p : Ptr} {index d a' : Nat} {value : Cell} {z : St} {h : Heap}
    (e : Dense.nodeInsert z.heap k p index value = .ok (h, d, a')) :
    ∃ z' a, p = .heap a ∧ nodeInsert k p index value z = .ok (d, .heap a', z') ∧ z'.heap = h ∧
      SEff (Fresh z.heap a) none z z' := by
  unfold Dense.nodeInsert at e
  have e0 := bind_inv e
  clear e
  obtain ⟨⟨a, n⟩, hn0, e⟩ := e0
  have hi := derefMut_inv hn0
  clear hn0
  obtain ⟨rfl, hn⟩ := hi
  simp only at hn e
  by_cases hk : n.kind ≠ k
  · rw [if_pos hk] at e; cases e
  rw [if_neg hk] at e
  have hk : n.kind = k := Decidable.of_not_not hk
  obtain ⟨⟨h1, b, n1⟩, hg, e⟩ := bind_inv e
  obtain ⟨⟨r, m⟩, hm, e⟩ := bind_inv e
  obtain ⟨d', hd, e⟩ := bind_inv e
  simp only at e
  obtain ⟨z1, e1, g1, f1, hb, hab⟩ := nodeGrow_ok hn hg
  have hF : ∀ pl, AtNode (.heap b) pl → Fresh z.heap a pl := by
    rintro pl ⟨l, rfl⟩
    refine ⟨b, l, rfl, ?_⟩
    rcases hab with h | h
    · exact Or.inl h
    · exact Or.inr (by rw [h]; exact Nat.le_refl _)
  have hH : ∀ q, q ∈ hdr (.heap b) → Fresh z.heap a q := fun q hq => hF q (hdr_node hq)
  obtain ⟨z2, e2, f2, c2⟩ := headerMut_ok b z1
  have n2 : z2.heap.node b = some n1 := by rw [f2.heap, g1]; exact hb
  obtain ⟨z3, e3, g3, f3⟩ := setBit_ok n2 (c2 _ (mask_hdr _)) hm
  have n3 : z3.heap.node b = some { n1 with mask := m } := by rw [g3]; exact put_node _ _ _
  have c3 : ∀ pl ∈ hdr (.heap b), Can z3 pl .write (some z1.next) := fun pl hp => f3.keep _ _ (c2 pl hp)
  obtain ⟨z4, e4, f4⟩ := denseIdx_ok (t := some z1.next) (deref_heap n3) (fun pl hp => (c3 pl hp).read) hd
  have n4 : z4.heap.node b = some { n1 with mask := m } := by rw [f4.heap]; exact n3
  have c4 : ∀ pl ∈ hdr (.heap b), Can z4 pl .write (some z1.next) := fun pl hp => f4.keep _ _ (c3 pl hp)
  obtain ⟨z5, e5, f5⟩ := readLen_ok (c4 _ (len_hdr _)).read (deref_heap n4)
  have n5 : z5.heap.node b = some { n1 with mask := m } := by rw [f5.heap]; exact n4
  have c5 : ∀ pl ∈ hdr (.heap b), Can z5 pl .write (some z1.next) := fun pl hp => f5.keep _ _ (c4 pl hp)
  by_cases hdl : d' ≤ n1.len
  · rw [if_pos hdl, bind_ok] at e
    obtain ⟨cs, hcs, e⟩ := bind_inv e
    obtain ⟨cs', hcs', e⟩ := bind_inv e
    obtain ⟨z6, e6, g6, f6⟩ := copyCells_ok n5 hcs
    have n6 : z6.heap.node b = some { n1 with mask := m, cells := cs } := by rw [g6]; exact put_node _ _ _
    have c6 : ∀ pl ∈ hdr (.heap b), Can z6 pl .write (some z1.next) := fun pl hp => (c5 pl hp).sframe f6 (hdr_not_cell hp)
    obtain ⟨z7, e7, g7, f7⟩ := writeCell_ok n6 (t := none) (d := d') (Or.inr rfl) hcs'
    have n7 : z7.heap.node b = some { n1 with mask := m, cells := cs' } := by rw [g7]; exact put_node _ _ _
    have c7 : ∀ pl ∈ hdr (.heap b), Can z7 pl .write (some z1.next) := fun pl hp =>
      (c6 pl hp).sframe f7 fun h => hdr_not_cell hp ⟨_, h⟩
    obtain ⟨z8, e8, f8⟩ := readLen_ok (c7 _ (len_hdr _)).read (deref_heap n7)
    have n8 : z8.heap.node b = some { n1 with mask := m, cells := cs' } := by rw [f8.heap]; exact n7
    have c8 := f8.keep _ _ (c7 _ (len_hdr _))
    by_cases hl : n1.len + 1 < 256
    · rw [if_pos hl, bind_ok] at e
      cases e
      obtain ⟨z9, e9, g9, f9⟩ := writeLen_ok n8 c8 (n1.len + 1)
      refine ⟨z9, a, rfl, ?_, ?_, ?_⟩
      · unfold nodeInsert
        rw [checkKind_ok hn hk, bind_ok, e1, bind_ok]
        simp only
        rw [e2, bind_ok]
        simp only
        rw [e3, bind_ok, e4, bind_ok]
        simp only
        rw [e5, bind_ok]
        simp only
        rw [if_pos hdl, bind_ok, e6, bind_ok, e7, bind_ok, e8, bind_ok]
        simp only
        rw [if_pos hl, bind_ok, e9, bind_ok]
        rfl
      · rw [g9, f8.heap, g7, g6, f5.heap, f4.heap, g3, f2.heap, g1, put_put, put_put, put_put]
      · exact (((((((f1.trans (f2.s.mono hH)).trans (f3.base.mono hH)).trans (f4.s.base.mono hH)).trans
          (f5.s.base.mono hH)).trans (f6.mono fun q ⟨d, hq⟩ => hF q ⟨_, hq⟩)).trans
          (f7.mono fun q hq => hF q ⟨_, hq⟩)).trans (f8.s.base.mono hH)).trans (f9.base.mono fun q hq => hF q ⟨_, hq⟩)
    · rw [if_neg hl] at e; cases e
  · rw [if_neg hdl] at e; cases e

theorem nodeRemove_ok {k : Kind} {p : Ptr} {index : Nat} {z : St} {h : Heap}
    (e : Dense.nodeRemove z.heap k p index = .ok h) :
    ∃ z', nodeRemove k p index z = .ok z' ∧ z'.heap = h ∧ SEff (AtNode p) none z z' := by
  unfold Dense.nodeRemove at e
  have e0 := bind_inv e
  clear e
  obtain ⟨⟨b, n⟩, hn0, e⟩ := e0
  have hi := derefMut_inv hn0
  clear hn0
  obtain ⟨rfl, hn⟩ := hi
  simp only at hn e
  by_cases hk : n.kind ≠ k
  · rw [if_pos hk] at e; cases e
  rw [if_neg hk] at e
  have hk : n.kind = k := Decidable.of_not_not hk
  obtain ⟨d, hd, e⟩ := bind_inv e
  obtain ⟨⟨r, m⟩, hm, e⟩ := bind_inv e
  simp only at e
  obtain ⟨z2, e2, f2, c2⟩ := headerMut_ok b z
  have n2 : z2.heap.node b = some n := by rw [f2.heap]; exact hn
  obtain ⟨z3, e3, f3⟩ := denseIdx_ok (t := some z.next) (deref_heap n2) (fun pl hp => (c2 pl hp).read) hd
  have n3 : z3.heap.node b = some n := by rw [f3.heap]; exact n2
  have c3 : ∀ pl ∈ hdr (.heap b), Can z3 pl .write (some z.next) := fun pl hp => f3.keep _ _ (c2 pl hp)
  obtain ⟨z4, e4, g4, f4⟩ := setBit_ok n3 (c3 _ (mask_hdr _)) hm
  have n4 : z4.heap.node b = some { n with mask := m } := by rw [g4]; exact put_node _ _ _
  have c4 : ∀ pl ∈ hdr (.heap b), Can z4 pl .write (some z.next) := fun pl hp => f4.keep _ _ (c3 pl hp)
  obtain ⟨z5, e5, f5⟩ := readLen_ok (c4 _ (len_hdr _)).read (deref_heap n4)
  have n5 : z5.heap.node b = some { n with mask := m } := by rw [f5.heap]; exact n4
  have c5 : ∀ pl ∈ hdr (.heap b), Can z5 pl .write (some z.next) := fun pl hp => f5.keep _ _ (c4 pl hp)
  by_cases hdl : d + 1 ≤ n.len
  · rw [if_pos hdl, bind_ok] at e
    obtain ⟨cs, hcs, e⟩ := bind_inv e
    cases e
    obtain ⟨z6, e6, g6, f6⟩ := copyCells_ok n5 hcs
    have n6 : z6.heap.node b = some { n with mask := m, cells := cs } := by rw [g6]; exact put_node _ _ _
    have c6 : ∀ pl ∈ hdr (.heap b), Can z6 pl .write (some z.next) := fun pl hp => (c5 pl hp).sframe f6 (hdr_not_cell hp)
    obtain ⟨z7, e7, f7⟩ := readLen_ok (c6 _ (len_hdr _)).read (deref_heap n6)
    have n7 : z7.heap.node b = some { n with mask := m, cells := cs } := by rw [f7.heap]; exact n6
    obtain ⟨z8, e8, g8, f8⟩ := writeLen_ok n7 (f7.keep _ _ (c6 _ (len_hdr _))) (n.len - 1)
    have hH : ∀ q, q ∈ hdr (.heap b) → AtNode (.heap b) q := fun q hq => hdr_node hq
    refine ⟨z8, ?_, ?_, ((((((f2.s.mono hH).trans (f3.s.base.mono hH)).trans (f4.base.mono hH)).trans
      (f5.s.base.mono hH)).trans (f6.mono fun q ⟨d, hq⟩ => ⟨_, hq⟩)).trans (f7.s.base.mono hH)).trans
      (f8.base.mono fun q hq => ⟨_, hq⟩)⟩
    · unfold nodeRemove
      rw [checkKind_ok hn hk, bind_ok, e2, bind_ok]
      simp only
      rw [e3, bind_ok]
      simp only
      rw [e4, bind_ok, e5, bind_ok]
      simp only
      rw [if_pos hdl, bind_ok, e6, bind_ok, e7, bind_ok]
      exact e8
    · rw [g8, f7.heap, g6, f5.heap, g4, f3.heap, f2.heap, put_put, put_put]
  · rw [if_neg hdl] at e; cases e

theorem dropNode_ok {k : Kind} {p : Ptr} {z : St} {h : Heap} (e : Dense.dropNode z.heap k p = .ok h) :
    ∃ z', dropNode k p z = .ok z' ∧ z'.heap = h ∧ SEff (AtNode p) none z z' := by
  unfold Dense.dropNode at e
  have e0 := bind_inv e
  clear e
  obtain ⟨⟨a, n⟩, hn0, e⟩ := e0
  have hi := derefMut_inv hn0
  clear hn0
  obtain ⟨rfl, hn⟩ := hi
  simp only at hn e
  obtain ⟨z1, e1, f1, s1⟩ := header_ok (.heap a) z
  obtain ⟨s, hs⟩ := s1 _ (cap_hdr _)
  rw [← f1.heap] at e hn
  obtain ⟨z2, e2, g2, f2⟩ := dealloc_ok e
  refine ⟨z2, ?_, g2, (f1.s.mono fun q hq => hdr_node hq).trans f2⟩
  unfold dropNode
  rw [e1, bind_ok]
  simp only
  rw [readCap_top hs (deref_heap hn), bind_ok]
  exact e2

theorem setChild_ok {k : Kind} {p : Ptr} {index : Nat} {value : Cell} {z : St} {h : Heap}
    (e : Dense.setChild z.heap k p index value = .ok h) :
    ∃ z', setChild k p index value z = .ok z' ∧ z'.heap = h ∧ SEff (AtNode p) none z z' := by
  unfold Dense.setChild at e
  have e0 := bind_inv e
  clear e
  obtain ⟨⟨a, n⟩, hn0, e⟩ := e0
  have hi := derefMut_inv hn0
  clear hn0
  obtain ⟨rfl, hn⟩ := hi
  simp only at hn e
  by_cases hk : n.kind ≠ k
  · rw [if_pos hk] at e; cases e
  rw [if_neg hk] at e
  have hk : n.kind = k := Decidable.of_not_not hk
  obtain ⟨d, hd, e⟩ := bind_inv e
  obtain ⟨cs, hcs, e⟩ := bind_inv e
  cases e
  obtain ⟨z1, t, e1, f1, c1⟩ := getChildMut_ok hn hd
  obtain ⟨z2, e2, g2, f2⟩ := writeCell_ok (by rw [f1.heap]; exact hn) c1 hcs
  refine ⟨z2, ?_, by rw [g2, f1.heap], f1.s.trans (f2.base.mono fun q hq => ⟨_, hq⟩)⟩
  unfold setChild
  rw [checkKind_ok hn hk, bind_ok, e1, bind_ok]
  exact e2

end Hibit.Alias
