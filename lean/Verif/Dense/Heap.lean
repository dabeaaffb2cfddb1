import Verif.Dense.NodeLemmas
/-!
# Heaps of nodes placed at paths
-/
namespace Hibit.Dense
open Hibit

/-- Kind of the node at path `p`. -/
def kindOf (D : Nat) (p : List Nat) : Kind := if p.length + 1 < D then .branch else .term

/-- Sentinel cell of the node at path `p`. -/
def sent (D : Nat) (p : List Nat) : Cell :=
  if p.length + 1 < D then .ptr (.stat (9 - D + (p.length + 1))) else .idx 0

/-- `loc` places the live nodes, `F` gives their children; every block is a live node. -/
structure HRep (D : Nat) (h : Heap) (loc : List Nat → Option Nat)
    (F : List Nat → Nat → Option Cell) : Prop where
  node : ∀ p a, loc p = some a →
    ∃ n, h.node a = some n ∧ n.kind = kindOf D p ∧ NodeRep n (F p) (sent D p)
  inj : ∀ p q a, loc p = some a → loc q = some a → p = q
  cover : ∀ a n, h.node a = some n → ∃ p, loc p = some a
  fresh : ∀ a, h.next ≤ a → h.node a = none

theorem filterMap_congr_range {f g : Nat → Option Cell} {n : Nat} (h : ∀ i, i < n → f i = g i) :
    (List.range n).filterMap f = (List.range n).filterMap g := by
  have : ∀ l : List Nat, (∀ a ∈ l, f a = g a) → l.filterMap f = l.filterMap g := by
    intro l
    induction l with
    | nil => intro _; rfl
    | cons a l ih =>
      intro h
      simp only [List.filterMap_cons, h a (by simp), ih (fun b hb => h b (by simp [hb]))]
  exact this _ (fun a ha => h a (by simpa using ha))

theorem rank_congr {f g : Nat → Option Cell} {i : Nat} (hi : i < 64)
    (h : ∀ i, i < 64 → f i = g i) : rank f i = rank g i := by
  unfold rank
  rw [filterMap_congr_range (fun j hj => h j (by omega))]

theorem NodeRep.congr {n : Node} {f g : Nat → Option Cell} {s : Cell} (h : NodeRep n f s)
    (hfg : ∀ i, i < 64 → f i = g i) : NodeRep n g s := by
  have e := filterMap_congr_range hfg
  constructor
  · intro i hi; rw [← hfg i hi]; exact h.bits i hi
  · rw [← e]; exact h.take
  · rw [← e]; exact h.len_eq
  · exact h.le
  · exact h.cap_eq
  · exact h.cap_le

theorem NodeRep.len_one {n : Node} {f : Nat → Option Cell} {s : Cell} (h : NodeRep n f s) :
    n.len = 1 ↔ ∀ i, i < 64 → f i = none := by
  rw [h.len_eq]
  constructor
  · intro e i hi
    have : (List.range 64).filterMap f = [] := List.length_eq_zero_iff.1 (by omega)
    rw [List.filterMap_eq_nil_iff] at this
    exact this i (by simpa using hi)
  · intro e
    have : (List.range 64).filterMap f = [] := by
      rw [List.filterMap_eq_nil_iff]
      intro i hi; exact e i (by simpa using hi)
    rw [this]; rfl

variable {D : Nat} {h : Heap} {loc : List Nat → Option Nat} {F : List Nat → Nat → Option Cell}

theorem HRep.congr (H : HRep D h loc F) {G : List Nat → Nat → Option Cell}
    (hfg : ∀ p a, loc p = some a → ∀ i, i < 64 → F p i = G p i) : HRep D h loc G where
  node p a hp := by
    obtain ⟨n, h1, h2, h3⟩ := H.node p a hp
    exact ⟨n, h1, h2, h3.congr (hfg p a hp)⟩
  inj := H.inj
  cover := H.cover
  fresh := H.fresh

theorem HRep.lt_next (H : HRep D h loc F) {p : List Nat} {a : Nat} (hp : loc p = some a) :
    a < h.next := by
  obtain ⟨n, h1, _⟩ := H.node p a hp
  rcases Nat.lt_or_ge a h.next with hl | hl
  · exact hl
  · rw [H.fresh a hl] at h1; cases h1

/-- Replace the content of one live node. -/
theorem HRep.put (H : HRep D h loc F) {p : List Nat} {a : Nat} (hp : loc p = some a)
    {n : Node} {f : Nat → Option Cell} (hk : n.kind = kindOf D p)
    (hn : NodeRep n f (sent D p)) : HRep D (h.put a n) loc (upd F p f) where
  node q b hq := by
    by_cases e : q = p
    · subst e
      rw [hp] at hq; cases hq
      exact ⟨n, by simp [Heap.put], hk, by simpa using hn⟩
    · have hb : b ≠ a := by
        intro e'; subst e'; exact e (H.inj _ _ _ hq hp)
      obtain ⟨m, h1, h2, h3⟩ := H.node q b hq
      exact ⟨m, by simpa [Heap.put, upd_ne _ _ hb] using h1, h2, by rwa [upd_ne _ _ e]⟩
  inj := H.inj
  cover b m hb := by
    by_cases e : b = a
    · subst e; exact ⟨p, hp⟩
    · simp [Heap.put, upd_ne _ _ e] at hb
      exact H.cover b m hb
  fresh b hb := by
    have : b ≠ a := by have := H.lt_next hp; simp [Heap.put] at hb; omega
    simp only [Heap.put, upd_ne _ _ this]
    exact H.fresh b hb

/-- Place a new block. -/
theorem HRep.allocNode (H : HRep D h loc F) {p : List Nat} (hp : loc p = none)
    {n : Node} {f : Nat → Option Cell} (hk : n.kind = kindOf D p)
    (hn : NodeRep n f (sent D p)) :
    HRep D (h.alloc n).1 (upd loc p (some h.next)) (upd F p f) where
  node q b hq := by
    by_cases e : q = p
    · subst e
      simp at hq; subst hq
      exact ⟨n, by simp [Heap.alloc], hk, by simpa using hn⟩
    · rw [upd_ne _ _ e] at hq
      have := H.lt_next hq
      obtain ⟨m, h1, h2, h3⟩ := H.node q b hq
      refine ⟨m, ?_, h2, by rwa [upd_ne _ _ e]⟩
      simp only [Heap.alloc]
      rw [upd_ne _ _ (by omega)]; exact h1
  inj q r b hq hr := by
    by_cases e : q = p
    · by_cases e' : r = p
      · rw [e, e']
      · subst e; rw [upd_ne _ _ e'] at hr
        simp at hq; subst hq
        have := H.lt_next hr; omega
    · rw [upd_ne _ _ e] at hq
      by_cases e' : r = p
      · subst e'; simp at hr; subst hr
        have := H.lt_next hq; omega
      · rw [upd_ne _ _ e'] at hr
        exact H.inj _ _ _ hq hr
  cover b m hb := by
    simp only [Heap.alloc] at hb
    by_cases e : b = h.next
    · subst e; exact ⟨p, by simp⟩
    · rw [upd_ne _ _ e] at hb
      obtain ⟨q, hq⟩ := H.cover b m hb
      refine ⟨q, ?_⟩
      rw [upd_ne _ _ (by intro e; rw [e, hp] at hq; cases hq)]; exact hq
  fresh b hb := by
    simp only [Heap.alloc] at hb ⊢
    rw [upd_ne _ _ (by omega)]
    exact H.fresh b (by omega)

/-- Free a live block. -/
theorem HRep.dealloc (H : HRep D h loc F) {p : List Nat} {a : Nat} (hp : loc p = some a) :
    ∃ n h', h.node a = some n ∧ h.dealloc a (kindOf D p) n.cap = .ok h' ∧
      HRep D h' (upd loc p none) F ∧ h'.next = h.next := by
  obtain ⟨n, h1, h2, h3⟩ := H.node p a hp
  refine ⟨n, { h with node := upd h.node a none }, h1, ?_, ?_, rfl⟩
  · unfold Heap.dealloc
    rw [h1]
    simp only [unwrapU, bind_ok]
    rw [if_pos ⟨h2, h3.cap_eq⟩]; rfl
  · constructor
    · intro q b hq
      by_cases e : q = p
      · subst e; simp at hq
      · rw [upd_ne _ _ e] at hq
        obtain ⟨m, g1, g2, g3⟩ := H.node q b hq
        refine ⟨m, ?_, g2, g3⟩
        have hb : b ≠ a := by intro e'; subst e'; exact e (H.inj _ _ _ hq hp)
        simpa [upd_ne _ _ hb] using g1
    · intro q r b hq hr
      have hq' : loc q = some b := by
        by_cases e : q = p
        · subst e; simp at hq
        · rwa [upd_ne _ _ e] at hq
      have hr' : loc r = some b := by
        by_cases e : r = p
        · subst e; simp at hr
        · rwa [upd_ne _ _ e] at hr
      exact H.inj _ _ _ hq' hr'
    · intro b m hb
      by_cases e : b = a
      · subst e; simp at hb
      · simp only [upd_ne _ _ e] at hb
        obtain ⟨q, hq⟩ := H.cover b m hb
        refine ⟨q, ?_⟩
        rw [upd_ne _ _ (by intro e'; rw [e', hp] at hq; cases hq; exact e rfl)]; exact hq
    · intro b hb
      simp only at hb ⊢
      by_cases e : b = a
      · subst e; simp
      · rw [upd_ne _ _ e]; exact H.fresh b hb

/-! ## The operations -/

theorem HRep.new (H : HRep D h loc F) {p : List Nat} (hp : loc p = none) :
    ∃ h', nodeNew h (kindOf D p) defaultCap (sent D p) = .ok (h', h.next) ∧
      HRep D h' (upd loc p (some h.next)) (upd F p (fun _ => none)) := by
  refine ⟨_, ?_, H.allocNode hp (n := ⟨kindOf D p, 0, defaultCap, 1,
    sent D p :: List.replicate (defaultCap - 1) .uninit⟩) rfl (NodeRep.new _ _)⟩
  unfold nodeNew
  rw [if_pos (by decide)]; rfl

theorem HRep.deref (H : HRep D h loc F) {p : List Nat} {a : Nat} (hp : loc p = some a) :
    ∃ n, Dense.deref h (.heap a) = .ok n ∧ derefMut h (.heap a) = .ok (a, n) ∧
      h.node a = some n ∧ n.kind = kindOf D p ∧ NodeRep n (F p) (sent D p) := by
  obtain ⟨n, h1, h2, h3⟩ := H.node p a hp
  exact ⟨n, by simp [Dense.deref, h1, unwrapU], by simp [derefMut, h1, unwrapU], h1, h2, h3⟩

theorem HRep.getChild (H : HRep D h loc F) {p : List Nat} {a : Nat} (hp : loc p = some a)
    {i : Nat} (hi : i < 64) : ∃ c, Dense.getChild h (.heap a) i = .ok c ∧
      (∀ x, F p i = some x → c = x) ∧ (c = sent D p ∨ ∃ j, j < 64 ∧ F p j = some c) := by
  obtain ⟨n, h1, -, h2, h3, h4⟩ := H.deref hp
  obtain ⟨c, g1, g2, g3⟩ := h4.getCell hi
  refine ⟨c, ?_, g2, g3⟩
  unfold Dense.getChild
  rw [h1]
  simp only [bind_ok]
  rw [denseIndex_eq h4.bits hi]
  simp only [bind_ok, getU_some g1]

/-- node.rs:298-335. -/
theorem HRep.insert (H : HRep D h loc F) {p : List Nat} {a : Nat} (hp : loc p = some a)
    {i : Nat} (hi : i < 64) (hF : F p i = none) (v : Cell) :
    ∃ h' a', nodeInsert h (kindOf D p) (.heap a) i v = .ok (h', rank (F p) i, a') ∧
      HRep D h' (upd loc p (some a')) (upd F p (upd (F p) i (some v))) := by
  obtain ⟨n, -, h1, h2, h3, h4⟩ := H.deref hp
  have hl64 := h4.len_lt_of_none hi hF
  -- the growing step
  obtain ⟨h1', a', n', hg, hH, hp', hk', hrep', hroom⟩ :
      ∃ h1 a' n', nodeGrow h (kindOf D p) a n = .ok (h1, a', n') ∧
        HRep D h1 (upd loc p (some a')) F ∧ (upd loc p (some a')) p = some a' ∧
        n'.kind = kindOf D p ∧ NodeRep n' (F p) (sent D p) ∧ n'.len < n'.cap := by
    unfold nodeGrow
    by_cases hfull : n.len = n.cap
    · rw [if_pos hfull, if_pos (by omega)]
      simp only [bind_ok]
      obtain ⟨n0, h0, e0, ed, hd, hnx⟩ := H.dealloc hp
      rw [h2] at e0; cases e0
      rw [ed]
      simp only [bind_ok]
      have hg := h4.grow hfull (by omega)
      have hA := hd.allocNode (p := p) (by simp) (by exact h3) hg
      refine ⟨_, h0.next, _, rfl, ?_, by simp, h3, hg, ?_⟩
      · have : upd (upd loc p none) p (some h0.next) = upd loc p (some h0.next) := by
          funext q; by_cases e : q = p
          · subst e; simp
          · simp [upd_ne _ _ e]
        rw [this] at hA
        refine hA.congr ?_
        intro q b hq j hj
        by_cases e : q = p
        · subst e; simp
        · rw [upd_ne _ _ e]
      · simp only; have := h4.len_eq; omega
    · rw [if_neg hfull]
      have : upd loc p (some a) = loc := by
        funext q; by_cases e : q = p
        · subst e; simp [hp]
        · simp [upd_ne _ _ e]
      refine ⟨h, a, n, rfl, by rw [this]; exact H, by simp, h3, h4, ?_⟩
      have := h4.le; omega
  obtain ⟨m, cells1, e1, e2, e3, e4, e5, e6, e7⟩ := hrep'.insert_cells hi hF v hroom
  refine ⟨h1'.put a' _, a', ?_, hH.put hp' (by exact hk') e7⟩
  unfold nodeInsert
  rw [h1]
  simp only [bind_ok, h3, ne_eq, not_true_eq_false, if_false]
  rw [hg]
  simp only [bind_ok, e1, e2, if_pos e3, e4, setU_ok v e5, if_pos e6, pure_eq_ok]

/-- node.rs:338-348. -/
theorem HRep.remove (H : HRep D h loc F) {p : List Nat} {a : Nat} (hp : loc p = some a)
    {i : Nat} (hi : i < 64) {v : Cell} (hF : F p i = some v) :
    ∃ h', nodeRemove h (kindOf D p) (.heap a) i = .ok h' ∧
      HRep D h' loc (upd F p (upd (F p) i none)) := by
  obtain ⟨n, -, h1, h2, h3, h4⟩ := H.deref hp
  obtain ⟨m, cells1, e1, e2, e3, e4, e5⟩ := h4.remove_cells hi hF
  refine ⟨h.put a _, ?_, H.put hp (by exact h3) e5⟩
  unfold nodeRemove
  rw [h1]
  simp only [bind_ok, h3, ne_eq, not_true_eq_false, if_false, e1, e2, if_pos e3, e4, pure_eq_ok]

/-- node.rs:352-356. -/
theorem HRep.drop (H : HRep D h loc F) {p : List Nat} {a : Nat} (hp : loc p = some a) :
    ∃ h', dropNode h (kindOf D p) (.heap a) = .ok h' ∧ HRep D h' (upd loc p none) F := by
  obtain ⟨n, h', h1, h2, h3, _⟩ := H.dealloc hp
  refine ⟨h', ?_, h3⟩
  unfold dropNode derefMut
  simp only [h1, unwrapU, bind_ok, pure_eq_ok, h2]

/-- Overwriting the cell at a known dense position. -/
theorem HRep.setCell (H : HRep D h loc F) {p : List Nat} {a : Nat} (hp : loc p = some a)
    {i : Nat} (hi : i < 64) {v : Cell} (hF : F p i = some v) (x : Cell) :
    ∃ n, h.node a = some n ∧ rank (F p) i < n.cells.length ∧
      n.cells[rank (F p) i]? = some v ∧
      HRep D (h.put a { n with cells := n.cells.set (rank (F p) i) x }) loc
        (upd F p (upd (F p) i (some x))) := by
  obtain ⟨n, -, h1, h2, h3, h4⟩ := H.deref hp
  obtain ⟨g1, g2⟩ := h4.set_cells hi hF x
  obtain ⟨c, k1, k2, -⟩ := h4.getCell hi
  exact ⟨n, h2, g1, by rw [k1, k2 _ hF], H.put hp (by exact h3) g2⟩

/-- `*node.get_child_mut(i) = x`. -/
theorem HRep.setChild (H : HRep D h loc F) {p : List Nat} {a : Nat} (hp : loc p = some a)
    {i : Nat} (hi : i < 64) {v : Cell} (hF : F p i = some v) (x : Cell) :
    ∃ h', Dense.setChild h (kindOf D p) (.heap a) i x = .ok h' ∧
      HRep D h' loc (upd F p (upd (F p) i (some x))) := by
  obtain ⟨n, h2, g1, -, g2⟩ := H.setCell hp hi hF x
  obtain ⟨n', -, h1, h2', h3, h4⟩ := H.deref hp
  rw [h2] at h2'; cases h2'
  refine ⟨_, ?_, g2⟩
  unfold Dense.setChild
  rw [h1]
  simp only [bind_ok]
  rw [if_neg (by simp [h3])]
  simp only [bind_ok, denseIndex_eq h4.bits hi, setU_ok x g1, pure_eq_ok]

/-! ## Static nodes -/

theorem stat_child {l : Nat} (hD : D ≤ 9) (hl : l + 1 < D) {i : Nat} (hi : i < 64) :
    Dense.getChild h (.stat (9 - D + l)) i = .ok (.ptr (.stat (9 - D + (l + 1)))) := by
  unfold Dense.getChild Dense.deref statNode
  simp only [show 9 - D + l < 8 by omega, if_true, unwrapU, bind_ok]
  rw [denseIndex_word _ hi]
  have : (List.range i).countP (fun j => (0 : Word).getLsbD j) = 0 := by
    rw [List.countP_eq_zero]; intro j _; simp
  simp only [this, bind_ok]
  rfl

theorem stat_idx (hD : D ≤ 9) (h1 : 1 ≤ D) {i : Nat} (hi : i < 64) :
    Dense.getChild h (.stat (9 - D + (D - 1))) i = .ok (.idx 0) := by
  have : 9 - D + (D - 1) = 8 := by omega
  rw [this]
  unfold Dense.getChild Dense.deref statNode
  simp only [show ¬ (8 < 8) by omega, if_false, if_true, unwrapU, bind_ok]
  rw [denseIndex_word _ hi]
  have : (List.range i).countP (fun j => (0 : Word).getLsbD j) = 0 := by
    rw [List.countP_eq_zero]; intro j _; simp
  simp only [this, bind_ok]
  rfl

theorem stat_mask {l : Nat} (hD : D ≤ 9) (hl : l < D) :
    ∃ n, Dense.deref h (.stat (9 - D + l)) = .ok n ∧ n.mask = 0 := by
  unfold Dense.deref statNode
  by_cases e : 9 - D + l < 8
  · simp only [if_pos e]; exact ⟨_, rfl, rfl⟩
  · simp only [if_neg e, show 9 - D + l = 8 by omega, if_true]; exact ⟨_, rfl, rfl⟩

end Hibit.Dense
