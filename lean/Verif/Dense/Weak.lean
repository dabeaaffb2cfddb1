import Verif.Dense.Drop
import Verif.Dense.History
/-!
# DenseTree with damaged branch nodes: nodes and heaps

`from_parts` (node.rs) stores a length without the sentinel, so the first insertion of a child into a
branch node of a tree materialized without exact hierarchy overwrites its sentinel. The nodes below keep
their children in order but need no sentinel: the *tail* `tl` behind the children is the sentinel, or
nothing at all. Terminal nodes are intact. (The statements follow `NodeLemmas`, `Heap`, `Tree` and
`Insert`, with `tl` in place of the sentinel.)
-/
namespace Hibit.Dense.Weak
open Hibit Hibit.Dense

/-- A node whose children are given by `f` (by child index), followed by `tl` up to the length. -/
structure NodeRep (n : Node) (f : Nat → Option Cell) (tl : List Cell) : Prop where
  bits : ∀ i, i < 64 → n.mask.getLsbD i = (f i).isSome
  take : n.cells.take n.len = (List.range 64).filterMap f ++ tl
  len_eq : n.len = ((List.range 64).filterMap f).length + tl.length
  le : n.len ≤ n.cap
  cap_eq : n.cells.length = n.cap
  cap_le : n.cap ≤ 128
  tl_le : tl.length ≤ 1
  cap_pos : 1 ≤ n.cap

theorem NodeRep.contains {n : Node} {f : Nat → Option Cell} {tl : List Cell} (h : NodeRep n f tl)
    {i : Nat} (hi : i < 64) : n.contains i = .ok (f i).isSome := by
  unfold Node.contains
  rw [getBitUnchecked_eq _ hi, h.bits i hi]

/-- The cell read through the rank of a child is the child. -/
theorem NodeRep.getCell {n : Node} {f : Nat → Option Cell} {tl : List Cell} (h : NodeRep n f tl)
    {i : Nat} (hi : i < 64) {x : Cell} (hx : f i = some x) : n.cells[rank f i]? = some x := by
  have hs := filterMap_split f hi
  rw [hx] at hs
  simp only [Option.toList_some, List.singleton_append] at hs
  have ht := h.take
  have hlt : rank f i < n.len := by
    rw [h.len_eq, hs]; simp [rank]; omega
  have e1 : n.cells[rank f i]? = (n.cells.take n.len)[rank f i]? := by
    rw [List.getElem?_take, if_pos hlt]
  rw [e1, ht, hs, List.append_assoc, List.getElem?_append_right (by simp [rank])]
  simp [rank]

/-- With the sentinel in place, every position can be read. -/
theorem NodeRep.getCell_sent {n : Node} {f : Nat → Option Cell} {s : Cell} (h : NodeRep n f [s])
    {i : Nat} (hi : i < 64) : ∃ c, n.cells[rank f i]? = some c ∧
      (c = s ∨ ∃ j, j < 64 ∧ f j = some c) := by
  have h' : Dense.NodeRep n f s := ⟨h.bits, h.take, h.len_eq, h.le, h.cap_eq, h.cap_le⟩
  obtain ⟨c, g1, -, g2⟩ := h'.getCell hi
  exact ⟨c, g1, g2⟩

theorem NodeRep.len_one {n : Node} {f : Nat → Option Cell} {s : Cell} (h : NodeRep n f [s]) :
    n.len = 1 ↔ ∀ i, i < 64 → f i = none := by
  have h' : Dense.NodeRep n f s := ⟨h.bits, h.take, h.len_eq, h.le, h.cap_eq, h.cap_le⟩
  exact h'.len_one

/-- node.rs:319-334: the in-place part of `insert`, given room for one more cell. -/
theorem NodeRep.insert_cells {n : Node} {f : Nat → Option Cell} {tl : List Cell} (h : NodeRep n f tl)
    {i : Nat} (hi : i < 64) (hf : f i = none) (v : Cell) (hroom : n.len < n.cap) :
    ∃ m cells1, setBitUnchecked true n.mask i = .ok (false, m) ∧
      denseIndex m i = .ok (rank f i) ∧ rank f i ≤ n.len ∧
      copyCells n.cells (rank f i) (rank f i + 1) (n.len - rank f i) = .ok cells1 ∧
      rank f i < cells1.length ∧ n.len + 1 < 256 ∧
      NodeRep { n with mask := m, len := n.len + 1, cells := cells1.set (rank f i) v }
        (upd f i (some v)) tl := by
  obtain ⟨m, hm, hmb⟩ := setBitUnchecked_spec true n.mask hi
  have hbit : n.mask.getLsbD i = false := by rw [h.bits i hi, hf]; rfl
  have hmbits : ∀ j, j < 64 → m.getLsbD j = (upd f i (some v) j).isSome := by
    intro j hj
    rw [hmb j hj]
    by_cases e : j = i
    · subst e; simp
    · rw [if_neg e, upd_ne _ _ e, h.bits j hj]
  have hs := filterMap_split f hi
  rw [hf] at hs
  simp only [Option.toList_none, List.nil_append] at hs
  have hlen := h.len_eq
  rw [hs, List.length_append] at hlen
  have hr : ((List.range i).filterMap f).length = rank f i := rfl
  have hcl := h.cap_eq
  -- decomposition of the cells
  have hcells : n.cells = ((List.range i).filterMap f ++ above f i ++ tl) ++ n.cells.drop n.len := by
    conv => lhs; rw [← List.take_append_drop n.len n.cells, h.take, hs]
  generalize hA : (List.range i).filterMap f = A at *
  generalize hB : above f i = B at *
  generalize hJ : n.cells.drop n.len = J at *
  have hJl : J.length = n.cap - n.len := by rw [← hJ]; simp [hcl]
  have hJpos : J ≠ [] := by intro e; rw [e] at hJl; simp at hJl; omega
  obtain ⟨x, J', rfl⟩ := List.exists_cons_of_ne_nil hJpos
  refine ⟨m, n.cells.take (rank f i + 1) ++ (B ++ tl) ++ J', ?_, ?_, by omega, ?_, ?_, ?_, ?_⟩
  · rw [hm, hbit]
  · rw [denseIndex_eq hmbits hi, rank_upd]
  · unfold copyCells
    rw [if_pos (by constructor <;> omega)]
    congr 1
    have e1 : (n.cells.drop (rank f i)).take (n.len - rank f i) = B ++ tl := by
      rw [hcells, List.append_assoc, List.append_assoc, List.drop_left' hr, ← List.append_assoc,
        List.take_left']
      simp; omega
    have e2 : n.cells.drop (rank f i + 1 + (n.len - rank f i)) = J' := by
      have : rank f i + 1 + (n.len - rank f i) = n.len + 1 := by omega
      rw [this, ← List.drop_drop, hJ]; rfl
    rw [e1, e2]
  · simp; omega
  · have htl := h.tl_le
    have := filterMap_length_le f
    rw [hs, List.length_append] at this
    omega
  · have hset : (n.cells.take (rank f i + 1) ++ (B ++ tl) ++ J').set (rank f i) v =
        A ++ ([v] ++ (B ++ tl)) ++ J' := by
      have hlt : rank f i < n.cells.length := by omega
      have hta : n.cells.take (rank f i) = A := by
        rw [hcells, List.append_assoc, List.append_assoc, List.take_left' hr]
      rw [List.take_succ_eq_append_getElem hlt, hta]
      rw [List.append_assoc, List.append_assoc, List.set_append_right _ _ (by omega)]
      simp [hr]
    have hnew : (List.range 64).filterMap (upd f i (some v)) = A ++ ([v] ++ B) := by
      rw [filterMap_split _ hi, below_upd, above_upd, upd_same, hA, hB]; rfl
    constructor
    · exact hmbits
    · rw [hnew]
      simp only [hset]
      rw [List.take_left']
      · simp
      · simp; omega
    · rw [hnew]; simp; omega
    · simp only; omega
    · simp only [hset]
      rw [hcells] at hcl
      simp at hcl ⊢
      omega
    · exact h.cap_le
    · exact h.tl_le
    · exact h.cap_pos

/-- node.rs:338-348: the effect of `remove` on the node. -/
theorem NodeRep.remove_cells {n : Node} {f : Nat → Option Cell} {tl : List Cell} (h : NodeRep n f tl)
    {i : Nat} (hi : i < 64) {v : Cell} (hf : f i = some v) :
    ∃ m cells1, setBitUnchecked false n.mask i = .ok (true, m) ∧
      denseIndex n.mask i = .ok (rank f i) ∧ rank f i + 1 ≤ n.len ∧
      copyCells n.cells (rank f i + 1) (rank f i) (n.len - rank f i - 1) = .ok cells1 ∧
      NodeRep { n with mask := m, len := n.len - 1, cells := cells1 } (upd f i none) tl := by
  obtain ⟨m, hm, hmb⟩ := setBitUnchecked_spec false n.mask hi
  have hbit : n.mask.getLsbD i = true := by rw [h.bits i hi, hf]; rfl
  have hmbits : ∀ j, j < 64 → m.getLsbD j = (upd f i none j).isSome := by
    intro j hj
    rw [hmb j hj]
    by_cases e : j = i
    · subst e; simp
    · rw [if_neg e, upd_ne _ _ e, h.bits j hj]
  have hs := filterMap_split f hi
  rw [hf] at hs
  simp only [Option.toList_some, List.singleton_append] at hs
  have hlen := h.len_eq
  rw [hs, List.length_append] at hlen
  have hr : ((List.range i).filterMap f).length = rank f i := rfl
  have hcl := h.cap_eq
  have hcells : n.cells = (((List.range i).filterMap f ++ v :: above f i) ++ tl) ++
      n.cells.drop n.len := by
    conv => lhs; rw [← List.take_append_drop n.len n.cells, h.take, hs]
  generalize hA : (List.range i).filterMap f = A at *
  generalize hB : above f i = B at *
  generalize hJ : n.cells.drop n.len = J at *
  simp only [List.length_cons] at hlen
  have hle := h.le
  have hA' : n.cells.take (rank f i) = A := by
    rw [hcells, List.append_assoc, List.append_assoc, List.take_left' hr]
  refine ⟨m, A ++ (B ++ tl) ++ n.cells.drop (n.len - 1), ?_, denseIndex_eq h.bits hi,
    by omega, ?_, ?_⟩
  · rw [hm, hbit]
  · unfold copyCells
    rw [if_pos (by constructor <;> omega)]
    congr 1
    have e1 : (n.cells.drop (rank f i + 1)).take (n.len - rank f i - 1) = B ++ tl := by
      have : n.cells = (A ++ [v]) ++ ((B ++ tl) ++ J) := by rw [hcells]; simp
      rw [this, List.drop_left' (by simp; omega), List.take_left']
      simp; omega
    have e2 : rank f i + (n.len - rank f i - 1) = n.len - 1 := by omega
    rw [e1, e2, hA']
  · have hnew : (List.range 64).filterMap (upd f i none) = A ++ B := by
      rw [filterMap_split _ hi, below_upd, above_upd, upd_same, hA, hB]; rfl
    constructor
    · exact hmbits
    · rw [hnew]
      simp only
      rw [List.take_left']
      · simp
      · simp; omega
    · rw [hnew]; simp; omega
    · simp only; omega
    · simp; omega
    · exact h.cap_le
    · exact h.tl_le
    · exact h.cap_pos

/-- Overwriting a present child. -/
theorem NodeRep.set_cells {n : Node} {f : Nat → Option Cell} {tl : List Cell} (h : NodeRep n f tl)
    {i : Nat} (hi : i < 64) {v : Cell} (hf : f i = some v) (x : Cell) :
    rank f i < n.cells.length ∧
      NodeRep { n with cells := n.cells.set (rank f i) x } (upd f i (some x)) tl := by
  have hs := filterMap_split f hi
  rw [hf] at hs
  simp only [Option.toList_some, List.singleton_append] at hs
  have hlen := h.len_eq
  rw [hs, List.length_append] at hlen
  simp only [List.length_cons] at hlen
  have hr : ((List.range i).filterMap f).length = rank f i := rfl
  have hcl := h.cap_eq
  have hle := h.le
  have hnew : (List.range 64).filterMap (upd f i (some x)) =
      (List.range i).filterMap f ++ x :: above f i := by
    rw [filterMap_split _ hi, below_upd, above_upd, upd_same]; rfl
  refine ⟨by omega, ?_⟩
  constructor
  · intro j hj
    by_cases e : j = i
    · subst e; rw [upd_same]; simp only; rw [h.bits j hj, hf]; rfl
    · rw [upd_ne _ _ e]; exact h.bits j hj
  · simp only
    rw [List.take_set, h.take, hs, hnew]
    rw [List.append_assoc, List.set_append_right _ _ (by omega)]
    simp [hr]
  · rw [hnew]; simp only [List.length_append, List.length_cons]; omega
  · exact h.le
  · simp [hcl]
  · exact h.cap_le
  · exact h.tl_le
  · exact h.cap_pos

/-- A grown node. -/
theorem NodeRep.grow {n : Node} {f : Nat → Option Cell} {tl : List Cell} (h : NodeRep n f tl)
    (hfull : n.len = n.cap) (hc : n.cap * 2 ≤ 128) :
    NodeRep { n with cap := n.cap * 2,
                     cells := n.cells ++ List.replicate (n.cap * 2 - n.cells.length) .uninit }
      f tl where
  bits := h.bits
  take := by
    simp only
    rw [List.take_append_of_le_length (by rw [h.cap_eq]; exact h.le)]
    exact h.take
  len_eq := h.len_eq
  le := by simp only; have := h.le; omega
  cap_eq := by simp [h.cap_eq]; omega
  cap_le := hc
  tl_le := h.tl_le
  cap_pos := by simp only; have := h.cap_pos; omega

theorem NodeRep.len_lt_of_none {n : Node} {f : Nat → Option Cell} {tl : List Cell}
    (h : NodeRep n f tl) {i : Nat} (hi : i < 64) (hf : f i = none) : n.len ≤ 64 := by
  have hs := filterMap_split f hi
  rw [hf] at hs
  have htl := h.tl_le
  have := h.len_eq
  rw [hs] at this
  have h1 := List.length_filterMap_le f (List.range i)
  have h2 := List.length_filterMap_le f ((List.range (64 - i - 1)).map (· + (i + 1)))
  simp only [List.length_append, Option.toList_none, List.length_nil, List.length_range,
    List.length_map] at this h1 h2
  unfold above at this
  omega


theorem NodeRep.congr {n : Node} {f g : Nat → Option Cell} {tl : List Cell} (h : NodeRep n f tl)
    (hfg : ∀ i, i < 64 → f i = g i) : NodeRep n g tl := by
  have e := filterMap_congr_range hfg
  constructor
  · intro i hi; rw [← hfg i hi]; exact h.bits i hi
  · rw [← e]; exact h.take
  · rw [← e]; exact h.len_eq
  · exact h.le
  · exact h.cap_eq
  · exact h.cap_le
  · exact h.tl_le
  · exact h.cap_pos

/-! ## Heaps -/

/-- What may follow the children of the node at `p`: a terminal node has its sentinel. -/
def Tail (D : Nat) (p : List Nat) (tl : List Cell) : Prop := ¬ p.length + 1 < D → tl = [sent D p]

/-- `loc` places the live nodes, `F` gives their children; every block is a live node. -/
structure HRep (D : Nat) (h : Heap) (loc : List Nat → Option Nat)
    (F : List Nat → Nat → Option Cell) : Prop where
  node : ∀ p a, loc p = some a →
    ∃ n tl, h.node a = some n ∧ n.kind = kindOf D p ∧ NodeRep n (F p) tl ∧ Tail D p tl
  inj : ∀ p q a, loc p = some a → loc q = some a → p = q
  cover : ∀ a n, h.node a = some n → ∃ p, loc p = some a
  fresh : ∀ a, h.next ≤ a → h.node a = none

/-- Intact nodes are fine. -/
theorem HRep.of_strict {D : Nat} {h : Heap} {loc : List Nat → Option Nat}
    {F : List Nat → Nat → Option Cell} (H : Dense.HRep D h loc F) : HRep D h loc F where
  node p a hp := by
    obtain ⟨n, h1, h2, h3⟩ := H.node p a hp
    exact ⟨n, [sent D p], h1, h2, ⟨h3.bits, h3.take, h3.len_eq, h3.le, h3.cap_eq, h3.cap_le, by simp,
      Nat.le_trans (by rw [h3.len_eq]; omega) h3.le⟩,
      fun _ => rfl⟩
  inj := H.inj
  cover := H.cover
  fresh := H.fresh

variable {D : Nat} {h : Heap} {loc : List Nat → Option Nat} {F : List Nat → Nat → Option Cell}

theorem HRep.congr (H : HRep D h loc F) {G : List Nat → Nat → Option Cell}
    (hfg : ∀ p a, loc p = some a → ∀ i, i < 64 → F p i = G p i) : HRep D h loc G where
  node p a hp := by
    obtain ⟨n, tl, h1, h2, h3, h4⟩ := H.node p a hp
    exact ⟨n, tl, h1, h2, h3.congr (hfg p a hp), h4⟩
  inj := H.inj
  cover := H.cover
  fresh := H.fresh

theorem HRep.lt_next (H : HRep D h loc F) {p : List Nat} {a : Nat} (hp : loc p = some a) :
    a < h.next := by
  obtain ⟨n, tl, h1, _⟩ := H.node p a hp
  rcases Nat.lt_or_ge a h.next with hl | hl
  · exact hl
  · rw [H.fresh a hl] at h1; cases h1

/-- Replace the content of one live node. -/
theorem HRep.put (H : HRep D h loc F) {p : List Nat} {a : Nat} (hp : loc p = some a)
    {n : Node} {f : Nat → Option Cell} (hk : n.kind = kindOf D p)
    {tl : List Cell} (hn : NodeRep n f tl) (htl : Tail D p tl) : HRep D (h.put a n) loc (upd F p f) where
  node q b hq := by
    by_cases e : q = p
    · subst e
      rw [hp] at hq; cases hq
      exact ⟨n, tl, by simp [Heap.put], hk, by simpa using hn, htl⟩
    · have hb : b ≠ a := by
        intro e'; subst e'; exact e (H.inj _ _ _ hq hp)
      obtain ⟨m, tl, h1, h2, h3, h4⟩ := H.node q b hq
      exact ⟨m, tl, by simpa [Heap.put, upd_ne _ _ hb] using h1, h2, by rwa [upd_ne _ _ e], h4⟩
  inj := H.inj
  cover b m hb := by
    by_cases e : b = a
    · subst e; exact ⟨p, hp⟩
    · simp [Heap.put, upd_ne _ _ e] at hb
      exact H.cover b m hb
  fresh b hb := by
    have : b ≠ a := by have := H.lt_next hp; simp [Heap.put] at hb; omega
    simp only [Heap.put, upd_ne _ _ this]
    exact H.fresh b hb

/-- Place a new block. -/
theorem HRep.allocNode (H : HRep D h loc F) {p : List Nat} (hp : loc p = none)
    {n : Node} {f : Nat → Option Cell} (hk : n.kind = kindOf D p)
    {tl : List Cell} (hn : NodeRep n f tl) (htl : Tail D p tl) :
    HRep D (h.alloc n).1 (upd loc p (some h.next)) (upd F p f) where
  node q b hq := by
    by_cases e : q = p
    · subst e
      simp at hq; subst hq
      exact ⟨n, tl, by simp [Heap.alloc], hk, by simpa using hn, htl⟩
    · rw [upd_ne _ _ e] at hq
      have := H.lt_next hq
      obtain ⟨m, tl, h1, h2, h3, h4⟩ := H.node q b hq
      refine ⟨m, tl, ?_, h2, by rwa [upd_ne _ _ e], h4⟩
      simp only [Heap.alloc]
      rw [upd_ne _ _ (by omega)]; exact h1
  inj q r b hq hr := by
    by_cases e : q = p
    · by_cases e' : r = p
      · rw [e, e']
      · subst e; rw [upd_ne _ _ e'] at hr
        simp at hq; subst hq
        have := H.lt_next hr; omega
    · rw [upd_ne _ _ e] at hq
      by_cases e' : r = p
      · subst e'; simp at hr; subst hr
        have := H.lt_next hq; omega
      · rw [upd_ne _ _ e'] at hr
        exact H.inj _ _ _ hq hr
  cover b m hb := by
    simp only [Heap.alloc] at hb
    by_cases e : b = h.next
    · subst e; exact ⟨p, by simp⟩
    · rw [upd_ne _ _ e] at hb
      obtain ⟨q, hq⟩ := H.cover b m hb
      refine ⟨q, ?_⟩
      rw [upd_ne _ _ (by intro e; rw [e, hp] at hq; cases hq)]; exact hq
  fresh b hb := by
    simp only [Heap.alloc] at hb ⊢
    rw [upd_ne _ _ (by omega)]
    exact H.fresh b (by omega)

/-- Free a live block. -/
theorem HRep.dealloc (H : HRep D h loc F) {p : List Nat} {a : Nat} (hp : loc p = some a) :
    ∃ n h', h.node a = some n ∧ h.dealloc a (kindOf D p) n.cap = .ok h' ∧
      HRep D h' (upd loc p none) F ∧ h'.next = h.next := by
  obtain ⟨n, tl, h1, h2, h3, -⟩ := H.node p a hp
  refine ⟨n, { h with node := upd h.node a none }, h1, ?_, ?_, rfl⟩
  · unfold Heap.dealloc
    rw [h1]
    simp only [unwrapU, bind_ok]
    rw [if_pos ⟨h2, h3.cap_eq⟩]; rfl
  · constructor
    · intro q b hq
      by_cases e : q = p
      · subst e; simp at hq
      · rw [upd_ne _ _ e] at hq
        obtain ⟨m, tl, g1, g2, g3⟩ := H.node q b hq
        refine ⟨m, tl, ?_, g2, g3⟩
        have hb : b ≠ a := by intro e'; subst e'; exact e (H.inj _ _ _ hq hp)
        simpa [upd_ne _ _ hb] using g1
    · intro q r b hq hr
      have hq' : loc q = some b := by
        by_cases e : q = p
        · subst e; simp at hq
        · rwa [upd_ne _ _ e] at hq
      have hr' : loc r = some b := by
        by_cases e : r = p
        · subst e; simp at hr
        · rwa [upd_ne _ _ e] at hr
      exact H.inj _ _ _ hq' hr'
    · intro b m hb
      by_cases e : b = a
      · subst e; simp at hb
      · simp only [upd_ne _ _ e] at hb
        obtain ⟨q, hq⟩ := H.cover b m hb
        refine ⟨q, ?_⟩
        rw [upd_ne _ _ (by intro e'; rw [e', hp] at hq; cases hq; exact e rfl)]; exact hq
    · intro b hb
      simp only at hb ⊢
      by_cases e : b = a
      · subst e; simp
      · rw [upd_ne _ _ e]; exact H.fresh b hb

/-! ## The operations -/

theorem HRep.new (H : HRep D h loc F) {p : List Nat} (hp : loc p = none) :
    ∃ h', nodeNew h (kindOf D p) defaultCap (sent D p) = .ok (h', h.next) ∧
      HRep D h' (upd loc p (some h.next)) (upd F p (fun _ => none)) := by
  refine ⟨_, ?_, H.allocNode hp (n := ⟨kindOf D p, 0, defaultCap, 1,
    sent D p :: List.replicate (defaultCap - 1) .uninit⟩) rfl (tl := [sent D p]) ?_ (fun _ => rfl)⟩
  · unfold nodeNew
    rw [if_pos (by decide)]; rfl
  · have h3 := Dense.NodeRep.new (kindOf D p) (sent D p)
    exact ⟨h3.bits, h3.take, h3.len_eq, h3.le, h3.cap_eq, h3.cap_le, by simp,
      Nat.le_trans (by rw [h3.len_eq]; omega) h3.le⟩

theorem HRep.deref (H : HRep D h loc F) {p : List Nat} {a : Nat} (hp : loc p = some a) :
    ∃ n tl, Dense.deref h (.heap a) = .ok n ∧ derefMut h (.heap a) = .ok (a, n) ∧
      h.node a = some n ∧ n.kind = kindOf D p ∧ NodeRep n (F p) tl ∧ Tail D p tl := by
  obtain ⟨n, tl, h1, h2, h3⟩ := H.node p a hp
  exact ⟨n, tl, by simp [Dense.deref, h1, unwrapU], by simp [derefMut, h1, unwrapU], h1, h2, h3⟩

/-- The child at a set bit. -/
theorem HRep.getChild (H : HRep D h loc F) {p : List Nat} {a : Nat} (hp : loc p = some a)
    {i : Nat} (hi : i < 64) {x : Cell} (hx : F p i = some x) : Dense.getChild h (.heap a) i = .ok x := by
  obtain ⟨n, tl, h1, -, h2, h3, h4, -⟩ := H.deref hp
  unfold Dense.getChild
  rw [h1]
  simp only [bind_ok]
  rw [denseIndex_eq h4.bits hi]
  simp only [bind_ok, getU_some (h4.getCell hi hx)]

/-- In a terminal node every position can be read. -/
theorem HRep.getChild_term (H : HRep D h loc F) {p : List Nat} {a : Nat} (hp : loc p = some a)
    (ht : ¬ p.length + 1 < D) {i : Nat} (hi : i < 64) :
    ∃ c, Dense.getChild h (.heap a) i = .ok c ∧ (c = sent D p ∨ ∃ j, j < 64 ∧ F p j = some c) := by
  obtain ⟨n, tl, h1, -, h2, h3, h4, h5⟩ := H.deref hp
  rw [h5 ht] at h4
  obtain ⟨c, g1, g2⟩ := h4.getCell_sent hi
  refine ⟨c, ?_, g2⟩
  unfold Dense.getChild
  rw [h1]
  simp only [bind_ok]
  rw [denseIndex_eq h4.bits hi]
  simp only [bind_ok, getU_some g1]

/-- node.rs:298-335. -/
theorem HRep.insert (H : HRep D h loc F) {p : List Nat} {a : Nat} (hp : loc p = some a)
    {i : Nat} (hi : i < 64) (hF : F p i = none) (v : Cell) :
    ∃ h' a', nodeInsert h (kindOf D p) (.heap a) i v = .ok (h', rank (F p) i, a') ∧
      HRep D h' (upd loc p (some a')) (upd F p (upd (F p) i (some v))) := by
  obtain ⟨n, tl, -, h1, h2, h3, h4, h5⟩ := H.deref hp
  have hl64 := h4.len_lt_of_none hi hF
  -- the growing step
  obtain ⟨h1', a', n', hg, hH, hp', hk', hrep', hroom⟩ :
      ∃ h1 a' n', nodeGrow h (kindOf D p) a n = .ok (h1, a', n') ∧
        HRep D h1 (upd loc p (some a')) F ∧ (upd loc p (some a')) p = some a' ∧
        n'.kind = kindOf D p ∧ NodeRep n' (F p) tl ∧ n'.len < n'.cap := by
    unfold nodeGrow
    by_cases hfull : n.len = n.cap
    · rw [if_pos hfull, if_pos (by omega)]
      simp only [bind_ok]
      obtain ⟨n0, h0, e0, ed, hd, hnx⟩ := H.dealloc hp
      rw [h2] at e0; cases e0
      rw [ed]
      simp only [bind_ok]
      have hg := h4.grow hfull (by omega)
      have hA := hd.allocNode (p := p) (by simp) (by exact h3) hg h5
      refine ⟨_, h0.next, _, rfl, ?_, by simp, h3, hg, ?_⟩
      · have : upd (upd loc p none) p (some h0.next) = upd loc p (some h0.next) := by
          funext q; by_cases e : q = p
          · subst e; simp
          · simp [upd_ne _ _ e]
        rw [this] at hA
        refine hA.congr ?_
        intro q b hq j hj
        by_cases e : q = p
        · subst e; simp
        · rw [upd_ne _ _ e]
      · simp only; have := h4.cap_pos; have := h4.le; omega
    · rw [if_neg hfull]
      have : upd loc p (some a) = loc := by
        funext q; by_cases e : q = p
        · subst e; simp [hp]
        · simp [upd_ne _ _ e]
      refine ⟨h, a, n, rfl, by rw [this]; exact H, by simp, h3, h4, ?_⟩
      have := h4.le; omega
  obtain ⟨m, cells1, e1, e2, e3, e4, e5, e6, e7⟩ := hrep'.insert_cells hi hF v hroom
  refine ⟨h1'.put a' _, a', ?_, hH.put hp' (by exact hk') e7 h5⟩
  unfold nodeInsert
  rw [h1]
  simp only [bind_ok, h3, ne_eq, not_true_eq_false, if_false]
  rw [hg]
  simp only [bind_ok, e1, e2, if_pos e3, e4, setU_ok v e5, if_pos e6, pure_eq_ok]

/-- node.rs:338-348. -/
theorem HRep.remove (H : HRep D h loc F) {p : List Nat} {a : Nat} (hp : loc p = some a)
    {i : Nat} (hi : i < 64) {v : Cell} (hF : F p i = some v) :
    ∃ h', nodeRemove h (kindOf D p) (.heap a) i = .ok h' ∧
      HRep D h' loc (upd F p (upd (F p) i none)) := by
  obtain ⟨n, tl, -, h1, h2, h3, h4, h5⟩ := H.deref hp
  obtain ⟨m, cells1, e1, e2, e3, e4, e5⟩ := h4.remove_cells hi hF
  refine ⟨h.put a _, ?_, H.put hp (by exact h3) e5 h5⟩
  unfold nodeRemove
  rw [h1]
  simp only [bind_ok, h3, ne_eq, not_true_eq_false, if_false, e1, e2, if_pos e3, e4, pure_eq_ok]

/-- node.rs:352-356. -/
theorem HRep.drop (H : HRep D h loc F) {p : List Nat} {a : Nat} (hp : loc p = some a) :
    ∃ h', dropNode h (kindOf D p) (.heap a) = .ok h' ∧ HRep D h' (upd loc p none) F := by
  obtain ⟨n, h', h1, h2, h3, _⟩ := H.dealloc hp
  refine ⟨h', ?_, h3⟩
  unfold dropNode derefMut
  simp only [h1, unwrapU, bind_ok, pure_eq_ok, h2]

/-- Overwriting the cell at a known dense position. -/
theorem HRep.setCell (H : HRep D h loc F) {p : List Nat} {a : Nat} (hp : loc p = some a)
    {i : Nat} (hi : i < 64) {v : Cell} (hF : F p i = some v) (x : Cell) :
    ∃ n, h.node a = some n ∧ rank (F p) i < n.cells.length ∧
      n.cells[rank (F p) i]? = some v ∧
      HRep D (h.put a { n with cells := n.cells.set (rank (F p) i) x }) loc
        (upd F p (upd (F p) i (some x))) := by
  obtain ⟨n, tl, -, h1, h2, h3, h4, h5⟩ := H.deref hp
  obtain ⟨g1, g2⟩ := h4.set_cells hi hF x
  exact ⟨n, h2, g1, h4.getCell hi hF, H.put hp (by exact h3) g2 h5⟩

/-- `*node.get_child_mut(i) = x`. -/
theorem HRep.setChild (H : HRep D h loc F) {p : List Nat} {a : Nat} (hp : loc p = some a)
    {i : Nat} (hi : i < 64) {v : Cell} (hF : F p i = some v) (x : Cell) :
    ∃ h', Dense.setChild h (kindOf D p) (.heap a) i x = .ok h' ∧
      HRep D h' loc (upd F p (upd (F p) i (some x))) := by
  obtain ⟨n, h2, g1, -, g2⟩ := H.setCell hp hi hF x
  obtain ⟨n', tl, -, h1, h2', h3, h4, -⟩ := H.deref hp
  rw [h2] at h2'; cases h2'
  refine ⟨_, ?_, g2⟩
  unfold Dense.setChild
  rw [h1]
  simp only [bind_ok]
  rw [if_neg (by simp [h3])]
  simp only [bind_ok, denseIndex_eq h4.bits hi, setU_ok x g1, pure_eq_ok]

end Hibit.Dense.Weak
