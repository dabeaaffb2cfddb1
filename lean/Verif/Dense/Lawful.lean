import Verif.Dense.Remove
import Verif.Content
/-!
# DenseTree satisfies the tree contract
-/
namespace Hibit.Dense
open Hibit

variable {α : Type} {ex : List Nat → Prop} {D : Nat} {t : DT α} {M : Nat → Option α} {loc K : List Nat → Option Nat}

theorem DS.some_iff (S : DS ex D t M loc K) {P : List Nat} (hP : ValidPath 64 P)
    (hl : P.length = D) : (M (unpath 64 P)).isSome = (K P).isSome := by
  rw [S.den_path hP hl]
  cases hK : K P with
  | none => rfl
  | some d =>
    obtain ⟨_, v, hv⟩ := S.data.value hK
    simp [hv]

/-- The denotation of a DenseTree: the bits are the children of the live nodes. -/
def locSpec {α : Type} (D : Nat) (loc K : List Nat → Option Nat) (M : Nat → Option α) :
    TreeSpec α where
  bits p i := decide (i < 64) && (loc p).isSome && (cellsOf D loc K p i).isSome
  content p := M (unpath 64 p)

theorem DS.bits_iff (_S : DS ex D t M loc K) {p : List Nat} {i : Nat} (hi : i < 64) :
    (locSpec D loc K M).bits p i = true ↔ (∃ a, loc p = some a) ∧ cellsOf D loc K p i ≠ none := by
  simp only [locSpec, hi, decide_true, Bool.true_and, Bool.and_eq_true]
  constructor
  · rintro ⟨h1, h2⟩
    refine ⟨Option.isSome_iff_exists.1 h1, ?_⟩
    intro e; rw [e] at h2; cases h2
  · rintro ⟨⟨a, ha⟩, h2⟩
    refine ⟨by rw [ha]; rfl, ?_⟩
    cases e : cellsOf D loc K p i with
    | none => exact absurd e h2
    | some x => rfl

theorem DS.spec_wf (S : DS ex D t M loc K) {e : Bool} (he : e = true → ∀ p, ex p) :
    SpecWf 64 D e (locSpec D loc K M) where
  bits_lt p i h := by
    simp only [locSpec, Bool.and_eq_true, decide_eq_true_eq] at h
    exact h.1.1
  terminal p i hp hl hi := by
    have hvi := ValidPath.append hp hi
    have hl' : (p ++ [i]).length = D := by simpa using hl
    show _ = (M (unpath 64 (p ++ [i]))).isSome
    rw [S.some_iff hvi hl', Bool.eq_iff_iff, S.bits_iff hi, cellsOf_term hl]
    constructor
    · rintro ⟨_, h⟩
      cases e : K (p ++ [i]) with
      | none => rw [e] at h; simp at h
      | some d => rfl
    · intro h
      obtain ⟨d, hd⟩ := Option.isSome_iff_exists.1 h
      exact ⟨S.tree.klive _ _ _ hd, by rw [hd]; simp⟩
  upward p i j hp hi hl h := by
    simp only [locSpec, Bool.and_eq_true, decide_eq_true_eq] at h
    obtain ⟨a, ha⟩ := Option.isSome_iff_exists.1 h.1.2
    rw [S.bits_iff hi, cellsOf_branch (by omega), ha]
    exact ⟨S.tree.closed _ _ _ ha, by simp⟩
  exact_child e1 p i hp hl h := by
    have hi : i < 64 := by
      simp only [locSpec, Bool.and_eq_true, decide_eq_true_eq] at h
      exact h.1.1
    obtain ⟨⟨b, hb⟩, h2⟩ := (S.bits_iff hi).1 h
    rw [cellsOf_branch (by omega)] at h2
    cases e : loc (p ++ [i]) with
    | none => rw [e] at h2; simp at h2
    | some a =>
      obtain ⟨j, hj, hF⟩ := S.exact _ a (he e1 _) e (by simp)
      exact ⟨j, (S.bits_iff hj).2 ⟨⟨a, e⟩, hF⟩⟩

/-- The pointer a cursor holds for path `p`. -/
def ptrAt (D : Nat) (loc : List Nat → Option Nat) (p : List Nat) : Ptr :=
  match loc p with
  | some a => .heap a
  | none => .stat (9 - D + p.length)

/-- Cursor positions of `DenseTree`. -/
def curRel (D : Nat) (loc : List Nat → Option Nat) : CursorRel Cursor where
  inv c := c.length = D - 1
  pos c p := c.length = D - 1 ∧ p.length < D ∧
    ∀ l, l < p.length → c[l]? = some (some (ptrAt D loc (p.take (l + 1))))
  posC c p := c.length = D - 1 ∧ p.length < D ∧
    ∀ l, l < p.length → c[l]? = some (some (ptrAt D loc (p.take (l + 1))))

theorem bit_single (w : Word) (j : Nat) : Mask.bit [w] j = if j < 64 then w.getLsbD j else false := by
  by_cases h : j < 64
  · rw [if_pos h]
    unfold Mask.bit
    rw [Nat.div_eq_of_lt h, Nat.mod_eq_of_lt h]; rfl
  · rw [if_neg h]
    exact bit_of_ge (m := [w]) (by simp; omega)

/-- The node a cursor points to. -/
theorem DS.deref_ptrAt (S : DS ex D t M loc K) (h9 : D ≤ 9) {p : List Nat} (hv : ValidPath 64 p)
    (hp : p.length < D) : ∃ n, deref t.heap (ptrAt D loc p) = .ok n ∧
      (∀ j, Mask.bit [n.mask] j = (locSpec D loc K M).bits p j) ∧
      (∀ j, j < 64 → n.contains j = .ok ((locSpec D loc K M).bits p j)) := by
  unfold ptrAt
  have hge : ∀ j, ¬ j < 64 → (locSpec D loc K M).bits p j = false := by
    intro j hj
    cases e : (locSpec D loc K M).bits p j with
    | false => rfl
    | true => exact absurd ((S.spec_wf (e := false) (fun h => by cases h)).bits_lt p j e) hj
  cases hl : loc p with
  | none =>
    obtain ⟨n, h1, h2⟩ := stat_mask (h := t.heap) h9 hp
    have hz : ∀ j, j < 64 → (locSpec D loc K M).bits p j = false := by
      intro j hj
      cases e : (locSpec D loc K M).bits p j with
      | false => rfl
      | true =>
        obtain ⟨⟨a, ha⟩, _⟩ := (S.bits_iff hj).1 e
        rw [hl] at ha; cases ha
    refine ⟨n, h1, ?_, ?_⟩
    · intro j
      rw [bit_single]
      by_cases hj : j < 64
      · rw [if_pos hj, hz j hj, h2]; simp
      · rw [if_neg hj, hge j hj]
    · intro j hj
      unfold Node.contains
      rw [getBitUnchecked_eq _ hj, hz j hj, h2]; simp
  | some a =>
    obtain ⟨n, h1, -, -, -, h2⟩ := S.tree.rep.deref hl
    have hb : ∀ j, j < 64 → (locSpec D loc K M).bits p j = (cellsOf D loc K p j).isSome := by
      intro j hj
      rw [Bool.eq_iff_iff, S.bits_iff hj]
      constructor
      · rintro ⟨_, h⟩
        cases e : cellsOf D loc K p j with
        | none => exact absurd e h
        | some x => rfl
      · intro h
        refine ⟨⟨a, hl⟩, ?_⟩
        intro e; rw [e] at h; cases h
    refine ⟨n, h1, ?_, ?_⟩
    · intro j
      rw [bit_single]
      by_cases hj : j < 64
      · rw [if_pos hj, hb j hj, h2.bits j hj]
      · rw [if_neg hj, hge j hj]
    · intro j hj
      rw [h2.contains hj, hb j hj]

theorem DS.root_ptrAt (S : DS ex D t M loc K) : t.root = ptrAt D loc [] := by
  obtain ⟨a, h1, h2⟩ := S.tree.root
  unfold ptrAt; rw [h1, h2]

/-- The previous node of a selection. -/
theorem DS.prev_eq (S : DS ex D t M loc K) {c : Cursor} {p : List Nat}
    (hc : (curRel D loc).pos c p) : prevNode c t (p.length + 1) = .ok (ptrAt D loc p) := by
  unfold prevNode
  by_cases h : p.length + 1 = 1
  · rw [if_pos h]
    have : p = [] := List.length_eq_zero_iff.1 (by omega)
    rw [this, S.root_ptrAt]
  · rw [if_neg h]
    have := hc.2.2 (p.length - 1) (by omega)
    rw [show p.length - 1 + 1 = p.length by omega, List.take_length] at this
    rw [show p.length + 1 - 1 - 1 = p.length - 1 by omega, getU_some this]
    rfl

theorem curRel_extend {c : Cursor} {p : List Nat} {i : Nat} (hc : (curRel D loc).pos c p)
    (hp : p.length + 2 ≤ D) : (curRel D loc).pos
      (c.set (p.length + 1 - 1) (some (ptrAt D loc (p ++ [i])))) (p ++ [i]) := by
  obtain ⟨h1, h2, h3⟩ := hc
  refine ⟨by simpa using h1, by simp; omega, ?_⟩
  intro l hl
  simp only [List.length_append, List.length_singleton] at hl
  by_cases e : l = p.length
  · subst e
    rw [Nat.add_sub_cancel, List.getElem?_set_self (by omega), List.take_of_length_le (by simp)]
  · rw [List.getElem?_set_ne (by omega), h3 l (by omega),
      List.take_append_of_le_length (by omega)]

/-- The child pointer read through the cursor, given that the child exists. -/
theorem DS.child_ptrAt (S : DS ex D t M loc K) {p : List Nat} {i : Nat} (hv : ValidPath 64 p)
    (hp : p.length + 2 ≤ D) (hi : i < 64) (hb : (locSpec D loc K M).bits p i = true) :
    getChild t.heap (ptrAt D loc p) i = .ok (.ptr (ptrAt D loc (p ++ [i]))) := by
  obtain ⟨⟨a, ha⟩, hF⟩ := (S.bits_iff hi).1 hb
  rw [cellsOf_branch (by omega)] at hF
  cases e : loc (p ++ [i]) with
  | none => rw [e] at hF; simp at hF
  | some b =>
    unfold ptrAt
    rw [ha, e]
    exact S.tree.child ha e

theorem DS.ptrAt_wpos (_S : DS ex D t M loc K) (p : List Nat) :
    WPos D loc p.length (ptrAt D loc p) := by
  unfold ptrAt
  cases e : loc p with
  | none => exact .inr rfl
  | some a => exact .inl ⟨p, a, e, rfl, rfl⟩

theorem DS.select_spec (S : DS ex D t M loc K) (h9 : D ≤ 9) {c : Cursor} {p : List Nat} {i : Nat}
    (hc : (curRel D loc).pos c p) (hv : ValidPath 64 p) (hi : i < 64) (hp : p.length + 2 ≤ D) :
    ∃ m c', curSelect D c t (p.length + 1) i = .ok (m, c') ∧ m.length = 1 ∧
      (∀ j, m.bit j = (locSpec D loc K M).bits (p ++ [i]) j) ∧
      (curRel D loc).pos c' (p ++ [i]) := by
  obtain ⟨n, e1, -, e2⟩ := S.deref_ptrAt h9 hv (by omega)
  obtain ⟨q, e3, -⟩ := S.tree.wpos_child h9 (S.ptrAt_wpos p) (by omega) hi
  obtain ⟨n', e4, e5, -⟩ := S.deref_ptrAt h9 (ValidPath.append hv hi) (by simp; omega)
  have hlen : p.length + 1 - 1 < c.length := by have := hc.1; omega
  refine ⟨[n'.mask], _, ?_, rfl, e5, curRel_extend hc hp⟩
  unfold curSelect
  rw [if_neg (by omega), S.prev_eq hc]
  simp only [bind_ok, e1, e2 i hi, e3, Cell.asPtr]
  cases hb : (locSpec D loc K M).bits p i with
  | true =>
    have := S.child_ptrAt hv hp hi hb
    rw [e3] at this
    simp only [Except.ok.injEq, Cell.ptr.injEq] at this
    subst this
    simp only [if_true, bind_ok, setU_ok _ hlen, e4, pure_eq_ok]
  | false =>
    have hnone : loc (p ++ [i]) = none := by
      cases e : loc (p ++ [i]) with
      | none => rfl
      | some b =>
        obtain ⟨a, ha⟩ := S.tree.closed _ _ _ e
        have : (locSpec D loc K M).bits p i = true := by
          rw [S.bits_iff hi]
          refine ⟨⟨a, ha⟩, ?_⟩
          rw [cellsOf_branch (by omega), e]; simp
        rw [hb] at this; cases this
    have hpt : ptrAt D loc (p ++ [i]) = .stat (9 - D + (p.length + 1)) := by
      unfold ptrAt; rw [hnone]; simp
    simp only [Bool.false_eq_true, if_false]
    unfold emptyNode
    rw [if_pos (by omega)]
    rw [hpt] at e4 ⊢
    simp only [bind_ok, setU_ok _ hlen, e4, pure_eq_ok]

theorem DS.selectU_spec (S : DS ex D t M loc K) (h9 : D ≤ 9) {c : Cursor} {p : List Nat} {i : Nat}
    (hc : (curRel D loc).pos c p) (hv : ValidPath 64 p) (hi : i < 64) (hp : p.length + 2 ≤ D)
    (hb : (locSpec D loc K M).bits p i = true) :
    ∃ m c', curSelectU c t (p.length + 1) i = .ok (m, c') ∧ m.length = 1 ∧
      (∀ j, m.bit j = (locSpec D loc K M).bits (p ++ [i]) j) ∧
      (curRel D loc).pos c' (p ++ [i]) := by
  obtain ⟨n', e4, e5, -⟩ := S.deref_ptrAt h9 (ValidPath.append hv hi) (by simp; omega)
  have hlen : p.length + 1 - 1 < c.length := by have := hc.1; omega
  refine ⟨[n'.mask], _, ?_, rfl, e5, curRel_extend hc hp⟩
  unfold curSelectU
  rw [if_neg (by omega), S.prev_eq hc]
  simp only [bind_ok, S.child_ptrAt hv hp hi hb, Cell.asPtr, setU_ok _ hlen, e4, pure_eq_ok]

theorem DS.terminal_eq (S : DS ex D t M loc K) {c : Cursor} {p : List Nat}
    (hc : (curRel D loc).pos c p) (hp : p.length + 1 = D) :
    curTerminal D c t = .ok (ptrAt D loc p) := by
  unfold curTerminal
  by_cases h : D = 1
  · rw [if_pos h]
    have : p = [] := List.length_eq_zero_iff.1 (by omega)
    rw [this, S.root_ptrAt]
  · rw [if_neg h]
    have := hc.2.2 (p.length - 1) (by omega)
    rw [show p.length - 1 + 1 = p.length by omega, List.take_length] at this
    rw [List.getLast?_eq_getElem?, hc.1, show D - 1 - 1 = p.length - 1 by omega, this]
    rfl

theorem DS.curDataU_spec (S : DS ex D t M loc K) {c : Cursor} {p : List Nat} {i : Nat}
    {d : α} (hc : (curRel D loc).pos c p) (hv : ValidPath 64 p) (hi : i < 64)
    (hp : p.length + 1 = D) (hd : M (unpath 64 (p ++ [i])) = some d) :
    getChild t.heap (ptrAt D loc p) i = .ok (.idx ((K (p ++ [i])).getD 0)) ∧
    t.data[(K (p ++ [i])).getD 0]? = some (some d) ∧ curDataU D c t i = .ok d := by
  have hvi := ValidPath.append hv hi
  have hl : (p ++ [i]).length = D := by simpa using hp
  have hs := S.some_iff hvi hl
  have hden := S.den_path hvi hl
  rw [hd] at hs hden
  obtain ⟨x, hx⟩ := Option.isSome_iff_exists.1 hs.symm
  obtain ⟨a, ha⟩ := S.tree.klive _ _ _ hx
  obtain ⟨_, v, hv'⟩ := S.data.value hx
  rw [hx] at hden
  simp only [Option.bind_some, hv', Option.join_some, Option.some.injEq] at hden
  subst hden
  have hpt : ptrAt D loc p = .heap a := by unfold ptrAt; rw [ha]
  rw [hx, hpt]
  refine ⟨S.tree.idx ha hx, hv', ?_⟩
  unfold curDataU
  rw [S.terminal_eq hc hp, hpt]
  simp only [bind_ok, S.tree.idx ha hx, Cell.asIdx, getU_some hv', unwrapU]

theorem DS.curData_spec (S : DS ex D t M loc K) (h9 : D ≤ 9) {c : Cursor} {p : List Nat} {i : Nat}
    (hc : (curRel D loc).pos c p) (hv : ValidPath 64 p) (hi : i < 64)
    (hp : p.length + 1 = D) : curData D c t i = .ok (M (unpath 64 (p ++ [i]))) := by
  have hterm := (S.spec_wf (e := false) (fun h => by cases h)).terminal p i hv hp hi
  obtain ⟨n, e1, -, e2⟩ := S.deref_ptrAt h9 hv (by omega)
  unfold curData
  rw [S.terminal_eq hc hp]
  simp only [bind_ok, e1, e2 i hi, hterm]
  show (if (M (unpath 64 (p ++ [i]))).isSome = true then _ else _) = _
  cases hd : M (unpath 64 (p ++ [i])) with
  | none => rfl
  | some d =>
    obtain ⟨g1, g2, -⟩ := S.curDataU_spec hc hv hi hp hd
    simp only [Option.isSome_some, if_true, g1, bind_ok, Cell.asIdx, getU_some g2, unwrapU,
      pure_eq_ok]

/-- **DenseTree is a lawful tree.** -/
theorem DS.lawful (S : DS ex D t M loc K) (h1 : 1 ≤ D) (h9 : D ≤ 9) {e : Bool}
    (he : e = true → ∀ p, ex p) :
    LawfulC { impl α D with exact := e } t (locSpec D loc K M) (curRel D loc) where
  cfg := validCfg h1 h9
  wf := S.spec_wf he
  data_eq p hv hl := S.treeData_eq h1 h9 hv hl
  dataU_eq p d hv hl hd := by
    show (do let d ← treeData D t (unpath 64 p) p; unwrapU d) = _
    rw [S.treeData_eq h1 h9 hv hl]
    have : M (unpath 64 p) = some d := hd
    simp [this, unwrapU]
  new_ok := ⟨_, rfl, by simp [curRel]⟩
  pos_inv c p h := h.1
  posC_pos c p h := h
  pos_take c p k h := by
    obtain ⟨g1, g2, g3⟩ := h
    refine ⟨g1, by simp; omega, ?_⟩
    intro l hl
    simp only [List.length_take] at hl
    rw [g3 l (by omega), List.take_take]
    congr 4; omega
  select_root c i hc hi := by
    obtain ⟨n, e1, e2, -⟩ := S.deref_ptrAt (p := []) h9 ValidPath.nil (by simp; omega)
    refine ⟨[n.mask], c, ?_, rfl, e2, hc, by simp; omega, by simp⟩
    show curSelect D c t 0 i = _
    unfold curSelect
    rw [← S.root_ptrAt] at e1
    simp only [if_true, e1, bind_ok, pure_eq_ok]
  selectU_root c i hc hi := by
    obtain ⟨n, e1, e2, -⟩ := S.deref_ptrAt (p := []) h9 ValidPath.nil (by simp; omega)
    refine ⟨[n.mask], c, ?_, rfl, e2, hc, by simp; omega, by simp⟩
    show curSelectU c t 0 i = _
    unfold curSelectU
    rw [← S.root_ptrAt] at e1
    simp only [if_true, e1, bind_ok, pure_eq_ok]
  select_node c p i hc hv hi hp := S.select_spec h9 hc hv hi hp
  selectU_node c p i hc hv hi hp hb := S.selectU_spec h9 hc hv hi hp hb
  curDataU_eq c p i d hc hv hi hp hd := (S.curDataU_spec hc hv hi hp hd).2.2
  curData_eq c p i hc hv hi hp := S.curData_spec h9 hc hv hi hp

/-- The contract holds for every tree representing a map. -/
theorem DRep.lawful (R : DRep AllNodes D t M) (h1 : 1 ≤ D) (h9 : D ≤ 9) :
    ∃ T Kr, LawfulC (impl α D) t T Kr ∧ ∀ p, T.content p = M (unpath 64 p) := by
  obtain ⟨loc, K, S⟩ := R
  exact ⟨_, _, S.lawful h1 h9 (e := true) (fun _ _ => trivial), fun _ => rfl⟩

/-- Without exactness, the contract holds for the type that does not claim it. -/
theorem DRep.lawfulX (R : DRep ex D t M) (h1 : 1 ≤ D) (h9 : D ≤ 9) :
    ∃ T Kr, LawfulC { impl α D with exact := false } t T Kr ∧ ∀ p, T.content p = M (unpath 64 p) := by
  obtain ⟨loc, K, S⟩ := R
  exact ⟨_, _, S.lawful h1 h9 (fun h => by cases h), fun _ => rfl⟩

end Hibit.Dense
