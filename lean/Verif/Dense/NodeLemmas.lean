import Verif.Dense.Model
import Verif.Bits.Lemmas
/-!
# Node operations act on the child function
-/
namespace Hibit.Dense
open Hibit

/-- A node whose children are given by `f` (by child index) and whose sentinel is `s`. -/
structure NodeRep (n : Node) (f : Nat → Option Cell) (s : Cell) : Prop where
  bits : ∀ i, i < 64 → n.mask.getLsbD i = (f i).isSome
  take : n.cells.take n.len = (List.range 64).filterMap f ++ [s]
  len_eq : n.len = ((List.range 64).filterMap f).length + 1
  le : n.len ≤ n.cap
  cap_eq : n.cells.length = n.cap
  cap_le : n.cap ≤ 128

/-- Number of children below position `i`. -/
def rank (f : Nat → Option Cell) (i : Nat) : Nat := ((List.range i).filterMap f).length

/-- The children above position `i`. -/
def above (f : Nat → Option Cell) (i : Nat) : List Cell :=
  ((List.range (64 - i - 1)).map (· + (i + 1))).filterMap f

theorem filterMap_split (f : Nat → Option Cell) {i : Nat} (h : i < 64) :
    (List.range 64).filterMap f = (List.range i).filterMap f ++ ((f i).toList ++ above f i) := by
  rw [range_split h, List.filterMap_append, List.filterMap_cons]
  unfold above
  cases f i <;> simp

@[simp] theorem upd_same {α β : Type} [DecidableEq α] (f : α → β) (a : α) (b : β) :
    upd f a b a = b := by simp [upd]

theorem upd_ne {α β : Type} [DecidableEq α] (f : α → β) {a x : α} (b : β) (h : x ≠ a) :
    upd f a b x = f x := by simp [upd, h]

theorem below_upd (f : Nat → Option Cell) (i : Nat) (x : Option Cell) :
    (List.range i).filterMap (upd f i x) = (List.range i).filterMap f := by
  have : ∀ l : List Nat, (∀ a ∈ l, a ≠ i) → l.filterMap (upd f i x) = l.filterMap f := by
    intro l
    induction l with
    | nil => intro _; rfl
    | cons a l ih =>
      intro h
      simp only [List.filterMap_cons, upd_ne f x (h a (by simp)),
        ih (fun b hb => h b (by simp [hb]))]
  apply this
  intro a ha; simp at ha; omega

theorem above_upd (f : Nat → Option Cell) (i : Nat) (x : Option Cell) :
    above (upd f i x) i = above f i := by
  have : ∀ l : List Nat, (∀ a ∈ l, a ≠ i) → l.filterMap (upd f i x) = l.filterMap f := by
    intro l
    induction l with
    | nil => intro _; rfl
    | cons a l ih =>
      intro h
      simp only [List.filterMap_cons, upd_ne f x (h a (by simp)),
        ih (fun b hb => h b (by simp [hb]))]
  apply this
  intro a ha
  simp only [List.mem_map, List.mem_range] at ha
  obtain ⟨k, _, rfl⟩ := ha
  omega

theorem rank_upd (f : Nat → Option Cell) (i : Nat) (x : Option Cell) :
    rank (upd f i x) i = rank f i := by unfold rank; rw [below_upd]

theorem filterMap_length_le (f : Nat → Option Cell) :
    ((List.range 64).filterMap f).length ≤ 64 := by
  have := List.length_filterMap_le f (List.range 64)
  simpa using this

theorem countP_lt (p : Nat → Bool) {i : Nat} (h : i ≤ 64) :
    (List.range 64).countP (fun j => p j && decide (j < i)) = (List.range i).countP p := by
  have : 64 = i + (64 - i) := by omega
  rw [this, List.range_add, List.countP_append]
  have h1 : (List.range i).countP (fun j => p j && decide (j < i)) = (List.range i).countP p := by
    apply List.countP_congr
    intro j hj
    simp only [List.mem_range] at hj
    simp [hj]
  have h2 : ((List.range (64 - i)).map (fun x => i + x)).countP
      (fun j => p j && decide (j < i)) = 0 := by
    rw [List.countP_eq_zero]
    intro j hj
    simp only [List.mem_map, List.mem_range] at hj
    obtain ⟨k, _, rfl⟩ := hj
    simp
  rw [h1, h2]; rfl

theorem denseIndex_word (w : Word) {i : Nat} (hi : i < 64) :
    denseIndex w i = .ok ((List.range i).countP (fun j => w.getLsbD j)) := by
  unfold denseIndex
  simp only [shlP, hi, if_true, bind_ok, pure_eq_ok]
  congr 1
  unfold popcount
  rw [← countP_lt _ (Nat.le_of_lt hi)]
  apply List.countP_congr
  intro j hj
  simp only [List.mem_range] at hj
  rw [BitVec.getLsbD_and, BitVec.getLsbD_not, shl_allOnes_bit hj]
  simp only [hj, decide_true, Bool.true_and]
  by_cases h : j < i
  · simp [h, Nat.not_le.2 h]
  · simp [h, Nat.not_lt.1 h]

theorem denseIndex_eq {w : Word} {f : Nat → Option Cell}
    (hb : ∀ i, i < 64 → w.getLsbD i = (f i).isSome) {i : Nat} (hi : i < 64) :
    denseIndex w i = .ok (rank f i) := by
  rw [denseIndex_word w hi]
  unfold rank
  rw [List.length_filterMap_eq_countP]
  congr 1
  apply List.countP_congr
  intro j hj
  simp only [List.mem_range] at hj
  rw [hb j (by omega)]

theorem NodeRep.contains {n : Node} {f : Nat → Option Cell} {s : Cell} (h : NodeRep n f s)
    {i : Nat} (hi : i < 64) : n.contains i = .ok (f i).isSome := by
  unfold Node.contains
  rw [getBitUnchecked_eq _ hi, h.bits i hi]

/-- The cell read through the rank: the child itself if present, else another child or the
sentinel. -/
theorem NodeRep.getCell {n : Node} {f : Nat → Option Cell} {s : Cell} (h : NodeRep n f s)
    {i : Nat} (hi : i < 64) : ∃ c, n.cells[rank f i]? = some c ∧
      (∀ x, f i = some x → c = x) ∧ (c = s ∨ ∃ j, j < 64 ∧ f j = some c) := by
  have hs := filterMap_split f hi
  have ht := h.take
  have hlt : rank f i < n.len := by
    rw [h.len_eq, hs]; simp [rank]; omega
  have e1 : n.cells[rank f i]? = (n.cells.take n.len)[rank f i]? := by
    rw [List.getElem?_take, if_pos hlt]
  rw [e1, ht]
  have hmem : ∀ c, c ∈ (List.range 64).filterMap f ++ [s] → c = s ∨ ∃ j, j < 64 ∧ f j = some c := by
    intro c hc
    simp only [List.mem_append, List.mem_filterMap, List.mem_range, List.mem_singleton] at hc
    rcases hc with ⟨j, hj, hc⟩ | rfl
    · exact .inr ⟨j, hj, hc⟩
    · exact .inl rfl
  have hl : rank f i < ((List.range 64).filterMap f ++ [s]).length := by
    rw [List.length_append]; rw [h.len_eq] at hlt; simpa using hlt
  refine ⟨_, List.getElem?_eq_getElem hl, ?_, hmem _ (List.getElem_mem hl)⟩
  intro x hx
  have : ((List.range 64).filterMap f ++ [s])[rank f i]? = some x := by
    rw [hs, hx]
    simp only [Option.toList_some, List.append_assoc, List.singleton_append, List.cons_append]
    rw [List.getElem?_append_right (by simp [rank])]
    simp [rank]
  rw [List.getElem?_eq_getElem hl] at this
  simpa using this

/-- node.rs:319-334: the in-place part of `insert`, given room for one more cell. -/
theorem NodeRep.insert_cells {n : Node} {f : Nat → Option Cell} {s : Cell} (h : NodeRep n f s)
    {i : Nat} (hi : i < 64) (hf : f i = none) (v : Cell) (hroom : n.len < n.cap) :
    ∃ m cells1, setBitUnchecked true n.mask i = .ok (false, m) ∧
      denseIndex m i = .ok (rank f i) ∧ rank f i ≤ n.len ∧
      copyCells n.cells (rank f i) (rank f i + 1) (n.len - rank f i) = .ok cells1 ∧
      rank f i < cells1.length ∧ n.len + 1 < 256 ∧
      NodeRep { n with mask := m, len := n.len + 1, cells := cells1.set (rank f i) v }
        (upd f i (some v)) s := by
  obtain ⟨m, hm, hmb⟩ := setBitUnchecked_spec true n.mask hi
  have hbit : n.mask.getLsbD i = false := by rw [h.bits i hi, hf]; rfl
  have hmbits : ∀ j, j < 64 → m.getLsbD j = (upd f i (some v) j).isSome := by
    intro j hj
    rw [hmb j hj]
    by_cases e : j = i
    · subst e; simp
    · rw [if_neg e, upd_ne _ _ e, h.bits j hj]
  have hs := filterMap_split f hi
  rw [hf] at hs
  simp only [Option.toList_none, List.nil_append] at hs
  have hlen := h.len_eq
  rw [hs, List.length_append] at hlen
  have hr : ((List.range i).filterMap f).length = rank f i := rfl
  have hcl := h.cap_eq
  -- decomposition of the cells
  have hcells : n.cells = ((List.range i).filterMap f ++ above f i ++ [s]) ++ n.cells.drop n.len := by
    conv => lhs; rw [← List.take_append_drop n.len n.cells, h.take, hs]
  generalize hA : (List.range i).filterMap f = A at *
  generalize hB : above f i = B at *
  generalize hJ : n.cells.drop n.len = J at *
  have hJl : J.length = n.cap - n.len := by rw [← hJ]; simp [hcl]
  have hJpos : J ≠ [] := by intro e; rw [e] at hJl; simp at hJl; omega
  obtain ⟨x, J', rfl⟩ := List.exists_cons_of_ne_nil hJpos
  refine ⟨m, n.cells.take (rank f i + 1) ++ (B ++ [s]) ++ J', ?_, ?_, by omega, ?_, ?_, ?_, ?_⟩
  · rw [hm, hbit]
  · rw [denseIndex_eq hmbits hi, rank_upd]
  · unfold copyCells
    rw [if_pos (by constructor <;> omega)]
    congr 1
    have e1 : (n.cells.drop (rank f i)).take (n.len - rank f i) = B ++ [s] := by
      rw [hcells, List.append_assoc, List.append_assoc, List.drop_left' hr, ← List.append_assoc,
        List.take_left']
      simp; omega
    have e2 : n.cells.drop (rank f i + 1 + (n.len - rank f i)) = J' := by
      have : rank f i + 1 + (n.len - rank f i) = n.len + 1 := by omega
      rw [this, ← List.drop_drop, hJ]; rfl
    rw [e1, e2]
  · simp; omega
  · have := filterMap_length_le f
    rw [hs, List.length_append] at this
    omega
  · have hset : (n.cells.take (rank f i + 1) ++ (B ++ [s]) ++ J').set (rank f i) v =
        A ++ ([v] ++ (B ++ [s])) ++ J' := by
      have hlt : rank f i < n.cells.length := by omega
      have hta : n.cells.take (rank f i) = A := by
        rw [hcells, List.append_assoc, List.append_assoc, List.take_left' hr]
      rw [List.take_succ_eq_append_getElem hlt, hta]
      rw [List.append_assoc, List.append_assoc, List.set_append_right _ _ (by omega)]
      simp [hr]
    have hnew : (List.range 64).filterMap (upd f i (some v)) = A ++ ([v] ++ B) := by
      rw [filterMap_split _ hi, below_upd, above_upd, upd_same, hA, hB]; rfl
    constructor
    · exact hmbits
    · rw [hnew]
      simp only [hset]
      rw [List.take_left']
      · simp
      · simp; omega
    · rw [hnew]; simp; omega
    · simp only; omega
    · simp only [hset]
      rw [hcells] at hcl
      simp at hcl ⊢
      omega
    · exact h.cap_le

/-- node.rs:338-348: the effect of `remove` on the node. -/
theorem NodeRep.remove_cells {n : Node} {f : Nat → Option Cell} {s : Cell} (h : NodeRep n f s)
    {i : Nat} (hi : i < 64) {v : Cell} (hf : f i = some v) :
    ∃ m cells1, setBitUnchecked false n.mask i = .ok (true, m) ∧
      denseIndex n.mask i = .ok (rank f i) ∧ rank f i + 1 ≤ n.len ∧
      copyCells n.cells (rank f i + 1) (rank f i) (n.len - rank f i - 1) = .ok cells1 ∧
      NodeRep { n with mask := m, len := n.len - 1, cells := cells1 } (upd f i none) s := by
  obtain ⟨m, hm, hmb⟩ := setBitUnchecked_spec false n.mask hi
  have hbit : n.mask.getLsbD i = true := by rw [h.bits i hi, hf]; rfl
  have hmbits : ∀ j, j < 64 → m.getLsbD j = (upd f i none j).isSome := by
    intro j hj
    rw [hmb j hj]
    by_cases e : j = i
    · subst e; simp
    · rw [if_neg e, upd_ne _ _ e, h.bits j hj]
  have hs := filterMap_split f hi
  rw [hf] at hs
  simp only [Option.toList_some, List.singleton_append] at hs
  have hlen := h.len_eq
  rw [hs, List.length_append] at hlen
  have hr : ((List.range i).filterMap f).length = rank f i := rfl
  have hcl := h.cap_eq
  have hcells : n.cells = (((List.range i).filterMap f ++ v :: above f i) ++ [s]) ++
      n.cells.drop n.len := by
    conv => lhs; rw [← List.take_append_drop n.len n.cells, h.take, hs]
  generalize hA : (List.range i).filterMap f = A at *
  generalize hB : above f i = B at *
  generalize hJ : n.cells.drop n.len = J at *
  simp only [List.length_cons] at hlen
  have hle := h.le
  have hA' : n.cells.take (rank f i) = A := by
    rw [hcells, List.append_assoc, List.append_assoc, List.take_left' hr]
  refine ⟨m, A ++ (B ++ [s]) ++ n.cells.drop (n.len - 1), ?_, denseIndex_eq h.bits hi,
    by omega, ?_, ?_⟩
  · rw [hm, hbit]
  · unfold copyCells
    rw [if_pos (by constructor <;> omega)]
    congr 1
    have e1 : (n.cells.drop (rank f i + 1)).take (n.len - rank f i - 1) = B ++ [s] := by
      have : n.cells = (A ++ [v]) ++ ((B ++ [s]) ++ J) := by rw [hcells]; simp
      rw [this, List.drop_left' (by simp; omega), List.take_left']
      simp; omega
    have e2 : rank f i + (n.len - rank f i - 1) = n.len - 1 := by omega
    rw [e1, e2, hA']
  · have hnew : (List.range 64).filterMap (upd f i none) = A ++ B := by
      rw [filterMap_split _ hi, below_upd, above_upd, upd_same, hA, hB]; rfl
    constructor
    · exact hmbits
    · rw [hnew]
      simp only
      rw [List.take_left']
      · simp
      · simp; omega
    · rw [hnew]; simp; omega
    · simp only; omega
    · simp; omega
    · exact h.cap_le

/-- Overwriting a present child. -/
theorem NodeRep.set_cells {n : Node} {f : Nat → Option Cell} {s : Cell} (h : NodeRep n f s)
    {i : Nat} (hi : i < 64) {v : Cell} (hf : f i = some v) (x : Cell) :
    rank f i < n.cells.length ∧
      NodeRep { n with cells := n.cells.set (rank f i) x } (upd f i (some x)) s := by
  have hs := filterMap_split f hi
  rw [hf] at hs
  simp only [Option.toList_some, List.singleton_append] at hs
  have hlen := h.len_eq
  rw [hs, List.length_append] at hlen
  simp only [List.length_cons] at hlen
  have hr : ((List.range i).filterMap f).length = rank f i := rfl
  have hcl := h.cap_eq
  have hle := h.le
  have hnew : (List.range 64).filterMap (upd f i (some x)) =
      (List.range i).filterMap f ++ x :: above f i := by
    rw [filterMap_split _ hi, below_upd, above_upd, upd_same]; rfl
  refine ⟨by omega, ?_⟩
  constructor
  · intro j hj
    by_cases e : j = i
    · subst e; rw [upd_same]; simp only; rw [h.bits j hj, hf]; rfl
    · rw [upd_ne _ _ e]; exact h.bits j hj
  · simp only
    rw [List.take_set, h.take, hs, hnew]
    rw [List.append_assoc, List.set_append_right _ _ (by omega)]
    simp [hr]
  · rw [hnew]; simp only [List.length_append, List.length_cons]; omega
  · exact h.le
  · simp [hcl]
  · exact h.cap_le

theorem filterMap_const_none (l : List Nat) : l.filterMap (fun _ => (none : Option Cell)) = [] := by
  induction l with
  | nil => rfl
  | cons a l ih => simp only [List.filterMap_cons, ih]

/-- A new node. -/
theorem NodeRep.new (k : Kind) (s : Cell) :
    NodeRep ⟨k, 0, defaultCap, 1, s :: List.replicate (defaultCap - 1) .uninit⟩
      (fun _ => none) s where
  bits := by intro i _; simp
  take := by simp [filterMap_const_none]
  len_eq := by simp [filterMap_const_none]
  le := by show 1 ≤ 2; omega
  cap_eq := by simp [defaultCap]
  cap_le := by show 2 ≤ 128; omega

/-- A grown node. -/
theorem NodeRep.grow {n : Node} {f : Nat → Option Cell} {s : Cell} (h : NodeRep n f s)
    (hfull : n.len = n.cap) (hc : n.cap * 2 ≤ 128) :
    NodeRep { n with cap := n.cap * 2,
                     cells := n.cells ++ List.replicate (n.cap * 2 - n.cells.length) .uninit }
      f s where
  bits := h.bits
  take := by
    simp only
    rw [List.take_append_of_le_length (by rw [h.cap_eq]; exact h.le)]
    exact h.take
  len_eq := h.len_eq
  le := by simp only; have := h.le; omega
  cap_eq := by simp [h.cap_eq]; omega
  cap_le := hc

theorem NodeRep.len_lt_of_none {n : Node} {f : Nat → Option Cell} {s : Cell}
    (h : NodeRep n f s) {i : Nat} (hi : i < 64) (hf : f i = none) : n.len ≤ 64 := by
  have hs := filterMap_split f hi
  rw [hf] at hs
  have := h.len_eq
  rw [hs] at this
  have h1 := List.length_filterMap_le f (List.range i)
  have h2 := List.length_filterMap_le f ((List.range (64 - i - 1)).map (· + (i + 1)))
  simp only [List.length_append, Option.toList_none, List.length_nil, List.length_range,
    List.length_map] at this h1 h2
  unfold above at this
  omega

end Hibit.Dense
