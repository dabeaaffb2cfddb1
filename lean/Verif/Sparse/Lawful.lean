import Verif.Sparse.Remove
import Verif.Content
/-!
# SparseTree satisfies the tree contract
-/
namespace Hibit.Sparse
open Hibit

section
variable {α : Type} {N D : Nat} {cap : Nat → Nat} {dflt : Option α} {Ph : List Nat} {t : ST α}
  {M : Nat → Option α} {B : List Nat → Nat}

theorem OnPath.prefix {p : List Nat} {i : Nat} (h : OnPath N D Ph (p ++ [i])) : OnPath N D Ph p := by
  obtain ⟨k, h1, h2, h3⟩ := h
  refine ⟨k, h1, h2, ?_⟩
  have := congrArg (List.take p.length) h3
  rw [List.take_take, List.take_left, Nat.min_eq_left (by simp)] at this
  exact this

theorem SS.live_below (S : SS N D cap dflt Ph t M B) : ∀ (m : Nat) (p : List Nat),
    p.length + m = D → p ≠ [] → B p ≠ 0 → Below (width N) D M p ∨ OnPath N D Ph p := by
  intro m
  induction m with
  | zero =>
    intro p hl _ h
    have hv := (S.lv.valid p h).1
    exact .inl ⟨[], by simpa using hv, by simpa using hl, by
      rw [List.append_nil, S.some_iff hv (by omega)]; exact h⟩
  | succ m ih =>
    intro p hl hne h
    rcases S.exact p hne (by omega) h with ⟨i, hi⟩ | hph
    · rcases ih (p ++ [i]) (by simp; omega) (by simp) hi with ⟨q, h1, h2, h3⟩ | h'
      · exact .inl ⟨i :: q, by simpa using h1, by simpa using h2, by simpa using h3⟩
      · exact .inr h'.prefix
    · exact .inr hph

theorem SS.below_live (S : SS N D cap dflt Ph t M B) {p : List Nat} (hne : p ≠ [])
    (h : Below (width N) D M p) : B p ≠ 0 := by
  obtain ⟨q, h1, h2, h3⟩ := h
  rw [S.some_iff h1 h2] at h3
  have hl : 1 ≤ p.length := by
    cases p with
    | nil => exact absurd rfl hne
    | cons a p => simp
  have := S.lv.prefix_live (P := p ++ q) q.length p.length (by simp) hl (by
    rw [List.take_of_length_le (by simp)]; exact h3)
  simpa using this

/-- The masks of the blocks and the content. -/
def blockSpec (N : Nat) (B : List Nat → Nat) (M : Nat → Option α) : TreeSpec α where
  bits p i := decide (B (p ++ [i]) ≠ 0)
  content p := M (unpath (width N) p)

/-- The mask of the block of any path. -/
theorem SS.mask (S : SS N D cap dflt Ph t M B) {p : List Nat} (hv : ValidPath (width N) p)
    {L : Level} (hL : t.levels[p.length]? = some L) :
    ∃ b, L.blocks[B p]? = some b ∧ b.mask.length = N ∧
      (∀ j, b.mask.bit j = (blockSpec N B M).bits p j) ∧
      ∀ j, j < width N → b.getOrZero j = .ok (B (p ++ [j])) := by
  obtain ⟨b, hb, hI⟩ := S.lv.block hv hL
  refine ⟨b, hb, hI.mlen, fun j => ?_, fun j hj => hI.get hj (by simp)⟩
  show _ = decide (B (p ++ [j]) ≠ 0)
  by_cases hj : j < width N
  · exact (hI.slot j hj (by simp)).2
  · rw [bit_of_ge (by rw [hI.mlen]; unfold width at hj; omega)]
    symm
    rw [decide_eq_false_iff_not]
    intro h
    exact hj ((S.lv.valid _ h).1 j (by simp))

/-- The masks are well-formed, and exact when no path is left behind. -/
theorem SS.wf (S : SS N D cap dflt Ph t M B) {ex : Bool} (hex : ex = true → Ph = []) :
    SpecWf (width N) D ex (blockSpec N B M) where
  bits_lt p i h := (S.lv.valid _ (of_decide_eq_true h)).1 i (by simp)
  terminal p i hv hl hi := by
    rw [Bool.eq_iff_iff]
    show decide (B (p ++ [i]) ≠ 0) = true ↔ (M (unpath (width N) (p ++ [i]))).isSome = true
    rw [decide_eq_true_iff, S.some_iff (hv.append hi) (by simpa using hl)]
  upward p i j hv hi hl h := by
    rcases S.lv.parent_live (of_decide_eq_true h) with e | e
    · simp at e
    · exact decide_eq_true e
  exact_child he p i hv hl h := by
    rcases S.exact (p ++ [i]) (by simp) (by simp; omega) (of_decide_eq_true h) with ⟨j, hj⟩ | hph
    · exact ⟨j, decide_eq_true hj⟩
    · rw [hex he] at hph
      obtain ⟨k, hk, -⟩ := hph
      simp at hk

/-- Cursor positions of `SparseTree`. -/
def curRel (D : Nat) (B : List Nat → Nat) : CursorRel Cursor where
  inv c := c.length = D - 1
  pos c p := c.length = D - 1 ∧ p.length < D ∧
    ∀ l, l < p.length → c[l]? = some (some (B (p.take (l + 1))))
  posC c p := c.length = D - 1 ∧ p.length < D ∧
    ∀ l, l < p.length → c[l]? = some (some (B (p.take (l + 1))))

theorem SS.prev_eq (S : SS N D cap dflt Ph t M B) {c : Cursor} {p : List Nat}
    (hc : (curRel D B).pos c p) : prevBlock c (p.length + 1) = .ok (B p) := by
  unfold prevBlock
  by_cases h : p.length + 1 = 1
  · rw [if_pos h]
    have : p = [] := List.length_eq_zero_iff.1 (by omega)
    rw [this, S.lv.root]
  · rw [if_neg h]
    have := hc.2.2 (p.length - 1) (by omega)
    rw [show p.length - 1 + 1 = p.length by omega, List.take_length] at this
    rw [show p.length + 1 - 1 - 1 = p.length - 1 by omega, getU_some this]
    rfl

theorem curRel_extend {c : Cursor} {p : List Nat} {i : Nat} (hc : (curRel D B).pos c p)
    (hp : p.length + 2 ≤ D) : (curRel D B).pos
      (c.set (p.length + 1 - 1) (some (B (p ++ [i])))) (p ++ [i]) := by
  obtain ⟨h1, h2, h3⟩ := hc
  refine ⟨by simpa using h1, by simp; omega, ?_⟩
  intro l hl
  simp only [List.length_append, List.length_singleton] at hl
  by_cases e : l = p.length
  · subst e
    rw [Nat.add_sub_cancel, List.getElem?_set_self (by omega), List.take_of_length_le (by simp)]
  · rw [List.getElem?_set_ne (by omega), h3 l (by omega),
      List.take_append_of_le_length (by omega)]

theorem SS.select_spec (S : SS N D cap dflt Ph t M B) {c : Cursor} {p : List Nat} {i : Nat}
    (hc : (curRel D B).pos c p) (hv : ValidPath (width N) p) (hi : i < width N)
    (hp : p.length + 2 ≤ D) :
    ∃ m c', curSelect c t (p.length + 1) i = .ok (m, c') ∧ m.length = N ∧
      (∀ j, m.bit j = (blockSpec N B M).bits (p ++ [i]) j) ∧
      (curRel D B).pos c' (p ++ [i]) := by
  obtain ⟨Lp, hLp, -⟩ := S.lv.get (n := p.length) (by omega)
  obtain ⟨L, hL, -⟩ := S.lv.get (n := p.length + 1) (by omega)
  obtain ⟨bp, e1, -, -, e2⟩ := S.mask hv hLp
  obtain ⟨b, e3, e4, e5, -⟩ := S.mask (p := p ++ [i]) (hv.append hi) (by simpa using hL)
  have hlen : p.length + 1 - 1 < c.length := by have := hc.1; omega
  refine ⟨b.mask, _, ?_, e4, e5, curRel_extend hc hp⟩
  unfold curSelect
  rw [if_neg (by omega), S.prev_eq hc]
  simp only [bind_ok, Nat.add_sub_cancel, getP_some hLp, getU_some e1, e2 i hi, getP_some hL,
    getU_some e3, setU_ok _ (show p.length < c.length by omega), pure_eq_ok]

theorem SS.select_root (S : SS N D cap dflt Ph t M B) (hD : 1 ≤ D) {c : Cursor}
    (hc : (curRel D B).inv c) :
    ∃ m, curSelect c t 0 0 = .ok (m, c) ∧ m.length = N ∧
      (∀ j, m.bit j = (blockSpec N B M).bits [] j) ∧ (curRel D B).pos c [] := by
  obtain ⟨L, hL, -⟩ := S.lv.get (n := 0) (by omega)
  obtain ⟨b, e3, e4, e5, -⟩ := S.mask (p := []) ValidPath.nil (by simpa using hL)
  rw [S.lv.root] at e3
  refine ⟨b.mask, ?_, e4, e5, hc, by simp; omega, by simp⟩
  unfold curSelect
  simp only [if_true, ne_eq, not_true, if_false, getP_some hL, bind_ok, getU_some e3, pure_eq_ok]

theorem SS.curData_spec (S : SS N D cap dflt Ph t M B) {c : Cursor} {p : List Nat} {i : Nat}
    (hc : (curRel D B).pos c p) (hv : ValidPath (width N) p) (hi : i < width N)
    (hp : p.length + 1 = D) : curData D c t i = .ok (M (unpath (width N) (p ++ [i]))) := by
  obtain ⟨L, hL, -⟩ := S.lv.get (n := p.length) (by omega)
  obtain ⟨b, e1, -, -, e2⟩ := S.mask hv hL
  have hbi : curBlock D c = .ok (B p) := by
    unfold curBlock
    by_cases h : D = 1
    · rw [if_pos h]
      have : p = [] := List.length_eq_zero_iff.1 (by omega)
      rw [this, S.lv.root]
    · rw [if_neg h]
      have := hc.2.2 (p.length - 1) (by omega)
      rw [show p.length - 1 + 1 = p.length by omega, List.take_length] at this
      rw [List.getLast?_eq_getElem?, hc.1, show D - 1 - 1 = p.length - 1 by omega, this]
      rfl
  have hl : (p ++ [i]).length = D := by simpa using hp
  unfold curData
  rw [hbi, S.den_path (hv.append hi) hl]
  simp only [bind_ok, show D - 1 = p.length by omega, getP_some hL, getU_some e1, e2 i hi]
  by_cases h : B (p ++ [i]) = 0
  · simp [h]
  · obtain ⟨v, hv'⟩ := S.data.value hl h
    rw [if_neg h, if_neg h, getU_some hv', hv']
    rfl

/-- **SparseTree is a lawful tree**, declared exact only if no path is left behind. -/
theorem SS.lawfulX (hc : Cfg N D) (S : SS N D cap dflt Ph t M B) {ex : Bool}
    (hex : ex = true → Ph = []) :
    LawfulC { impl α N D with exact := ex } t (blockSpec N B M) (curRel D B) where
  cfg := hc.valid
  wf := S.wf hex
  data_eq p hv hl := S.treeData_eq hv hl
  dataU_eq p d hv hl hd := by
    show (do let d ← treeData t p; unwrapU d) = _
    rw [S.treeData_eq hv hl]
    have : M (unpath (width N) p) = some d := hd
    simp [this, unwrapU]
  new_ok := ⟨_, rfl, by simp [curRel]⟩
  pos_inv c p h := h.1
  posC_pos c p h := h
  pos_take c p k h := by
    obtain ⟨g1, g2, g3⟩ := h
    refine ⟨g1, by simp; omega, ?_⟩
    intro l hl
    simp only [List.length_take] at hl
    rw [g3 l (by omega), List.take_take]
    congr 4; omega
  select_root c i hi h0 := by
    subst h0
    obtain ⟨m, h1, h2, h3, h4⟩ := S.select_root hc.pos hi
    exact ⟨m, c, h1, h2, h3, h4⟩
  selectU_root c i hi h0 := by
    subst h0
    obtain ⟨m, h1, h2, h3, h4⟩ := S.select_root hc.pos hi
    exact ⟨m, c, h1, h2, h3, h4⟩
  select_node c p i hc hv hi hp := S.select_spec hc hv hi hp
  selectU_node c p i hc hv hi hp _ := S.select_spec hc hv hi hp
  curDataU_eq c p i d hc hv hi hp hd := by
    show (do let d ← curData D c t i; unwrapU d) = _
    rw [S.curData_spec hc hv hi hp]
    have : M (unpath (width N) (p ++ [i])) = some d := hd
    simp [this, unwrapU]
  curData_eq c p i hc hv hi hp := S.curData_spec hc hv hi hp

theorem SRep.lawful (hc : Cfg N D) (R : SRep N D cap dflt [] t M) :
    ∃ T K, LawfulC (impl α N D) t T K ∧ ∀ p, T.content p = M (unpath (width N) p) := by
  obtain ⟨B, S⟩ := R
  exact ⟨_, _, S.lawfulX hc (ex := true) (fun _ => rfl), fun _ => rfl⟩

theorem SRep.lawfulX (hc : Cfg N D) (R : SRep N D cap dflt Ph t M) :
    ∃ T K, LawfulC { impl α N D with exact := false } t T K ∧
      ∀ p, T.content p = M (unpath (width N) p) := by
  obtain ⟨B, S⟩ := R
  exact ⟨_, _, S.lawfulX hc (ex := false) (fun h => by cases h), fun _ => rfl⟩

end

end Hibit.Sparse
