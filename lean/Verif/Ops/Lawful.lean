import Verif.Ops.Model
import Verif.Bits.Lemmas
import Verif.IterLemmas
/-!
# The combinators keep the tree contract: union, intersection, map, fold
-/
namespace Hibit

/-! ### intersection -/

/-- Denotation of an intersection. -/
def interSpec {δ0 δ1 : Type} (T0 : TreeSpec δ0) (T1 : TreeSpec δ1) : TreeSpec (δ0 × δ1) where
  bits := fun p i => T0.bits p i && T1.bits p i
  content := fun p =>
    match T0.content p, T1.content p with
    | some a, some b => some (a, b)
    | _, _ => none

/-- Cursor relation of a pair of cursors. -/
def pairRel {C0 C1 : Type} (K0 : CursorRel C0) (K1 : CursorRel C1) : CursorRel (C0 × C1) where
  inv := fun c => K0.inv c.1 ∧ K1.inv c.2
  pos := fun c p => K0.pos c.1 p ∧ K1.pos c.2 p
  posC := fun c p => K0.posC c.1 p ∧ K1.posC c.2 p

theorem bothU_eq {δ0 δ1 : Type} (d0 : Option δ0) (d1 : Option δ1) :
    bothU d0 d1 = .ok (match d0, d1 with | some a, some b => some (a, b) | _, _ => none) := by
  cases d0 <;> cases d1 <;> rfl

theorem interSpec_content_some {δ0 δ1 : Type} {T0 : TreeSpec δ0} {T1 : TreeSpec δ1} {p : List Nat}
    {d : δ0 × δ1} (h : (interSpec T0 T1).content p = some d) :
    T0.content p = some d.1 ∧ T1.content p = some d.2 := by
  simp only [interSpec] at h
  split at h
  · rename_i a b h0 h1
    simp only [Option.some.injEq] at h
    subst h
    exact ⟨h0, h1⟩
  · simp at h

theorem inter_lawful {S0 C0 δ0 S1 C1 δ1 : Type} {I0 : Impl S0 C0 δ0} {I1 : Impl S1 C1 δ1}
    {s0 : S0} {s1 : S1} {T0 : TreeSpec δ0} {T1 : TreeSpec δ1} {K0 : CursorRel C0}
    {K1 : CursorRel C1} (hN : I0.N = I1.N) (hD : I0.D = I1.D)
    (h0 : Lawful I0 s0 T0 K0) (h1 : Lawful I1 s1 T1 K1) :
    Lawful (interImpl I0 I1) (s0, s1) (interSpec T0 T1) (pairRel K0 K1) where
  cfg := h0.cfg
  wf :=
    { bits_lt := by
        intro p i h
        simp only [interSpec, Bool.and_eq_true] at h
        exact h0.wf.bits_lt p i h.1
      terminal := by
        intro p i hp hl hi
        have a := h0.wf.terminal p i hp hl hi
        have b := h1.wf.terminal p i (hN ▸ hp) (hD ▸ hl) (hN ▸ hi)
        simp only [interSpec, a, b]
        cases T0.content (p ++ [i]) <;> cases T1.content (p ++ [i]) <;> rfl
      upward := by
        intro p i j hp hi hl h
        simp only [interSpec, Bool.and_eq_true] at h ⊢
        exact ⟨h0.wf.upward p i j hp hi hl h.1, h1.wf.upward p i j (hN ▸ hp) (hN ▸ hi) (hD ▸ hl) h.2⟩
      exact_child := by intro h; simp [interImpl] at h }
  data_eq := by
    intro p hp hl
    have a := h0.data_eq p hp hl
    have b := h1.data_eq p (hN ▸ hp) (hD ▸ hl)
    rw [← hN] at b
    simp only [interImpl] at a b ⊢
    simp only [a, b, bind_ok, bothU_eq]
    rfl
  dataU_eq := by
    intro p d hp hl hd
    have ⟨ha, hb⟩ := interSpec_content_some hd
    have a := h0.dataU_eq p d.1 hp hl ha
    have b := h1.dataU_eq p d.2 (hN ▸ hp) (hD ▸ hl) hb
    rw [← hN] at b
    simp only [interImpl] at a b ⊢
    simp [a, b]
  new_ok := by
    obtain ⟨c0, e0, i0⟩ := h0.new_ok
    obtain ⟨c1, e1, i1⟩ := h1.new_ok
    exact ⟨(c0, c1), by simp [interImpl, e0, e1], i0, i1⟩
  pos_inv := fun c p h => ⟨h0.pos_inv _ _ h.1, h1.pos_inv _ _ h.2⟩
  posC_pos := fun c p h => ⟨h0.posC_pos _ _ h.1, h1.posC_pos _ _ h.2⟩
  pos_take := fun c p k h => ⟨h0.pos_take _ _ k h.1, h1.pos_take _ _ k h.2⟩
  select_root := by
    rintro ⟨c0, c1⟩ i ⟨i0, i1⟩ hi
    obtain ⟨m0, c0', e0, l0, b0, p0⟩ := h0.select_root c0 i i0 hi
    obtain ⟨m1, c1', e1, l1, b1, p1⟩ := h1.select_root c1 i i1 hi
    have hl : m0.length = m1.length := by rw [l0, l1, hN]
    refine ⟨andMask m0 m1, (c0', c1'), by simp [interImpl, e0, e1], ?_, ?_, p0, p1⟩
    · rw [length_andMask hl, l0]; rfl
    · intro j; rw [bit_andMask hl, b0, b1]; rfl
  selectU_root := by
    rintro ⟨c0, c1⟩ i ⟨i0, i1⟩ hi
    obtain ⟨m0, c0', e0, l0, b0, p0⟩ := h0.selectU_root c0 i i0 hi
    obtain ⟨m1, c1', e1, l1, b1, p1⟩ := h1.selectU_root c1 i i1 hi
    have hl : m0.length = m1.length := by rw [l0, l1, hN]
    refine ⟨andMask m0 m1, (c0', c1'), by simp [interImpl, e0, e1], ?_, ?_, p0, p1⟩
    · rw [length_andMask hl, l0]; rfl
    · intro j; rw [bit_andMask hl, b0, b1]; rfl
  select_node := by
    rintro ⟨c0, c1⟩ p i ⟨i0, i1⟩ hp hi hd
    obtain ⟨m0, c0', e0, l0, b0, p0⟩ := h0.select_node c0 p i i0 hp hi hd
    obtain ⟨m1, c1', e1, l1, b1, p1⟩ := h1.select_node c1 p i i1 (hN ▸ hp) (hN ▸ hi) (hD ▸ hd)
    have hl : m0.length = m1.length := by rw [l0, l1, hN]
    refine ⟨andMask m0 m1, (c0', c1'), by simp [interImpl, e0, e1], ?_, ?_, p0, p1⟩
    · rw [length_andMask hl, l0]; rfl
    · intro j; rw [bit_andMask hl, b0, b1]; rfl
  selectU_node := by
    rintro ⟨c0, c1⟩ p i ⟨i0, i1⟩ hp hi hd hb
    simp only [interSpec, Bool.and_eq_true] at hb
    obtain ⟨m0, c0', e0, l0, b0, p0⟩ := h0.selectU_node c0 p i i0 hp hi hd hb.1
    obtain ⟨m1, c1', e1, l1, b1, p1⟩ :=
      h1.selectU_node c1 p i i1 (hN ▸ hp) (hN ▸ hi) (hD ▸ hd) hb.2
    have hl : m0.length = m1.length := by rw [l0, l1, hN]
    refine ⟨andMask m0 m1, (c0', c1'), by simp [interImpl, e0, e1], ?_, ?_, p0, p1⟩
    · rw [length_andMask hl, l0]; rfl
    · intro j; rw [bit_andMask hl, b0, b1]; rfl
  curDataU_eq := by
    rintro ⟨c0, c1⟩ p i d ⟨i0, i1⟩ hp hi hl hd
    have ⟨ha, hb⟩ := interSpec_content_some hd
    have a := h0.curDataU_eq c0 p i d.1 i0 hp hi hl ha
    have b := h1.curDataU_eq c1 p i d.2 i1 (hN ▸ hp) (hN ▸ hi) (hD ▸ hl) hb
    simp [interImpl, a, b]

theorem inter_lawfulC {S0 C0 δ0 S1 C1 δ1 : Type} {I0 : Impl S0 C0 δ0} {I1 : Impl S1 C1 δ1}
    {s0 : S0} {s1 : S1} {T0 : TreeSpec δ0} {T1 : TreeSpec δ1} {K0 : CursorRel C0}
    {K1 : CursorRel C1} (hN : I0.N = I1.N) (hD : I0.D = I1.D)
    (h0 : LawfulC I0 s0 T0 K0) (h1 : LawfulC I1 s1 T1 K1) :
    LawfulC (interImpl I0 I1) (s0, s1) (interSpec T0 T1) (pairRel K0 K1) where
  toLawful := inter_lawful hN hD h0.toLawful h1.toLawful
  curData_eq := by
    rintro ⟨c0, c1⟩ p i ⟨i0, i1⟩ hp hi hl
    have a := h0.curData_eq c0 p i i0 hp hi hl
    have b := h1.curData_eq c1 p i i1 (hN ▸ hp) (hN ▸ hi) (hD ▸ hl)
    simp only [interImpl, a, b, bind_ok, bothU_eq]
    rfl

/-! ### union -/

/-- Denotation of a union. -/
def unionSpec {δ0 δ1 : Type} (T0 : TreeSpec δ0) (T1 : TreeSpec δ1) :
    TreeSpec (Option δ0 × Option δ1) where
  bits := fun p i => T0.bits p i || T1.bits p i
  content := fun p =>
    if (T0.content p).isNone && (T1.content p).isNone then none
    else some (T0.content p, T1.content p)

/-- Cursor relation of a union: the terminal nodes are always selected by checked selects. -/
def unionRel {C0 C1 : Type} (D : Nat) (K0 : CursorRel C0) (K1 : CursorRel C1) :
    CursorRel (C0 × C1) :=
  let pos := fun (c : C0 × C1) (p : List Nat) =>
    K0.pos c.1 p ∧ K1.pos c.2 p ∧ p.length + 1 ≤ D ∧
      (p.length + 1 = D → K0.posC c.1 p ∧ K1.posC c.2 p)
  { inv := fun c => K0.inv c.1 ∧ K1.inv c.2, pos := pos, posC := pos }

theorem union_lawfulC {S0 C0 δ0 S1 C1 δ1 : Type} {I0 : Impl S0 C0 δ0} {I1 : Impl S1 C1 δ1}
    {s0 : S0} {s1 : S1} {T0 : TreeSpec δ0} {T1 : TreeSpec δ1} {K0 : CursorRel C0}
    {K1 : CursorRel C1} (hN : I0.N = I1.N) (hD : I0.D = I1.D)
    (h0 : LawfulC I0 s0 T0 K0) (h1 : LawfulC I1 s1 T1 K1) :
    LawfulC (unionImpl I0 I1) (s0, s1) (unionSpec T0 T1) (unionRel I0.D K0 K1) := by
  have hD0 : 0 < I0.D := h0.cfg.depth
  have hdata : ∀ p, ValidPath (width I0.N) p → p.length = I0.D →
      (unionImpl I0 I1).data (s0, s1) (unpath (width I0.N) p) p =
        .ok ((unionSpec T0 T1).content p) := by
    intro p hp hl
    have a := h0.data_eq p hp hl
    have b := h1.data_eq p (hN ▸ hp) (hD ▸ hl)
    rw [← hN] at b
    simp only [unionImpl, a, b, bind_ok, unionSpec, pure_eq_ok]
    split <;> rfl
  have hcur : ∀ c p i, (unionRel I0.D K0 K1).pos c p → ValidPath (width I0.N) p →
      i < width I0.N → p.length + 1 = I0.D →
      (unionImpl I0 I1).curData c (s0, s1) i = .ok ((unionSpec T0 T1).content (p ++ [i])) := by
    rintro ⟨c0, c1⟩ p i ⟨_, _, _, hC⟩ hp hi hl
    have a := h0.curData_eq c0 p i (hC hl).1 hp hi hl
    have b := h1.curData_eq c1 p i (hC hl).2 (hN ▸ hp) (hN ▸ hi) (hD ▸ hl)
    simp only [unionImpl, a, b, bind_ok, unionSpec, pure_eq_ok]
    split <;> rfl
  have hroot : ∀ c i, (unionRel I0.D K0 K1).inv c → i = 0 →
      ∃ m c', (unionImpl I0 I1).select c (s0, s1) 0 i = .ok (m, c') ∧
      m.length = I0.N ∧ (∀ j, m.bit j = (unionSpec T0 T1).bits [] j) ∧
      (unionRel I0.D K0 K1).posC c' [] := by
    rintro ⟨c0, c1⟩ i ⟨i0, i1⟩ hi
    obtain ⟨m0, c0', e0, l0, b0, p0⟩ := h0.select_root c0 i i0 hi
    obtain ⟨m1, c1', e1, l1, b1, p1⟩ := h1.select_root c1 i i1 hi
    have hl : m0.length = m1.length := by rw [l0, l1, hN]
    refine ⟨orMask m0 m1, (c0', c1'), by simp [unionImpl, e0, e1], ?_, ?_,
      h0.posC_pos _ _ p0, h1.posC_pos _ _ p1, Nat.succ_le_of_lt hD0, fun _ => ⟨p0, p1⟩⟩
    · rw [length_orMask hl, l0]
    · intro j; rw [bit_orMask hl, b0, b1]; rfl
  have hnode : ∀ c p i, (unionRel I0.D K0 K1).pos c p → ValidPath (width I0.N) p →
      i < width I0.N → p.length + 2 ≤ I0.D →
      ∃ m c', (unionImpl I0 I1).select c (s0, s1) (p.length + 1) i = .ok (m, c') ∧
      m.length = I0.N ∧ (∀ j, m.bit j = (unionSpec T0 T1).bits (p ++ [i]) j) ∧
      (unionRel I0.D K0 K1).posC c' (p ++ [i]) := by
    rintro ⟨c0, c1⟩ p i ⟨i0, i1, _, _⟩ hp hi hd
    obtain ⟨m0, c0', e0, l0, b0, p0⟩ := h0.select_node c0 p i i0 hp hi hd
    obtain ⟨m1, c1', e1, l1, b1, p1⟩ := h1.select_node c1 p i i1 (hN ▸ hp) (hN ▸ hi) (hD ▸ hd)
    have hl : m0.length = m1.length := by rw [l0, l1, hN]
    refine ⟨orMask m0 m1, (c0', c1'), by simp [unionImpl, e0, e1], ?_, ?_,
      h0.posC_pos _ _ p0, h1.posC_pos _ _ p1, by simp; omega, fun _ => ⟨p0, p1⟩⟩
    · rw [length_orMask hl, l0]
    · intro j; rw [bit_orMask hl, b0, b1]; rfl
  exact
  { cfg := h0.cfg
    wf :=
      { bits_lt := by
          intro p i h
          simp only [unionSpec, Bool.or_eq_true] at h
          rcases h with h | h
          · exact h0.wf.bits_lt p i h
          · have := h1.wf.bits_lt p i h
            rw [← hN] at this; exact this
        terminal := by
          intro p i hp hl hi
          have a := h0.wf.terminal p i hp hl hi
          have b := h1.wf.terminal p i (hN ▸ hp) (hD ▸ hl) (hN ▸ hi)
          simp only [unionSpec, a, b]
          cases T0.content (p ++ [i]) <;> cases T1.content (p ++ [i]) <;> rfl
        upward := by
          intro p i j hp hi hl h
          simp only [unionSpec, Bool.or_eq_true] at h ⊢
          rcases h with h | h
          · exact .inl (h0.wf.upward p i j hp hi hl h)
          · exact .inr (h1.wf.upward p i j (hN ▸ hp) (hN ▸ hi) (hD ▸ hl) h)
        exact_child := by
          intro he p i hp hl h
          simp only [unionImpl, Bool.and_eq_true] at he
          simp only [unionSpec, Bool.or_eq_true] at h ⊢
          rcases h with h | h
          · obtain ⟨j, hj⟩ := h0.wf.exact_child he.1 p i hp hl h
            exact ⟨j, .inl hj⟩
          · obtain ⟨j, hj⟩ := h1.wf.exact_child he.2 p i (hN ▸ hp) (hD ▸ hl) h
            exact ⟨j, .inr hj⟩ }
    data_eq := hdata
    dataU_eq := by
      intro p d hp hl hd
      have := hdata p hp hl
      rw [hd] at this
      show ((unionImpl I0 I1).data (s0, s1) (unpath (width I0.N) p) p >>= unwrapU) = _
      rw [this]; rfl
    new_ok := by
      obtain ⟨c0, e0, i0⟩ := h0.new_ok
      obtain ⟨c1, e1, i1⟩ := h1.new_ok
      exact ⟨(c0, c1), by simp [unionImpl, e0, e1], i0, i1⟩
    pos_inv := fun c p h => ⟨h0.pos_inv _ _ h.1, h1.pos_inv _ _ h.2.1⟩
    posC_pos := fun c p h => h
    pos_take := by
      rintro c p k ⟨a, b, l, hC⟩
      refine ⟨h0.pos_take _ _ k a, h1.pos_take _ _ k b, by simp; omega, ?_⟩
      intro hk
      have : p.take k = p := by
        apply List.take_of_length_le
        simp at hk; omega
      rw [this] at hk ⊢
      exact hC hk
    select_root := hroot
    selectU_root := hroot
    select_node := hnode
    selectU_node := fun c p i hc hp hi hd _ => hnode c p i hc hp hi hd
    curDataU_eq := by
      intro c p i d hc hp hi hl hd
      have := hcur c p i hc hp hi hl
      rw [hd] at this
      show ((unionImpl I0 I1).curData c (s0, s1) i >>= unwrapU) = _
      rw [this]; rfl
    curData_eq := hcur }

/-! ### map -/

/-- Denotation of a map. -/
def mapSpec {δ ε : Type} (T : TreeSpec δ) (f : δ → ε) : TreeSpec ε where
  bits := T.bits
  content := fun p => (T.content p).map f

theorem mapSpec_wf {δ ε : Type} {W D : Nat} {e : Bool} {T : TreeSpec δ} (f : δ → ε)
    (h : SpecWf W D e T) : SpecWf W D e (mapSpec T f) where
  bits_lt := h.bits_lt
  terminal := by
    intro p i hp hl hi
    have := h.terminal p i hp hl hi
    simp only [mapSpec, Option.isSome_map]
    exact this
  upward := h.upward
  exact_child := h.exact_child

theorem map_lawful {S C δ ε : Type} {I : Impl S C δ} {s : S} {T : TreeSpec δ} {K : CursorRel C}
    (f : δ → ε) (h : Lawful I s T K) : Lawful (mapImpl I f) s (mapSpec T f) K where
  cfg := h.cfg
  wf := mapSpec_wf f h.wf
  data_eq := by
    intro p hp hl
    have := h.data_eq p hp hl
    simp only [mapImpl, mapSpec, this, bind_ok] at this ⊢
    cases T.content p <;> rfl
  dataU_eq := by
    intro p d hp hl hd
    simp only [mapSpec, Option.map_eq_some_iff] at hd
    obtain ⟨a, ha, rfl⟩ := hd
    have := h.dataU_eq p a hp hl ha
    simp only [mapImpl, this, bind_ok, pure_eq_ok]
  new_ok := h.new_ok
  pos_inv := h.pos_inv
  posC_pos := h.posC_pos
  pos_take := h.pos_take
  select_root := h.select_root
  selectU_root := h.selectU_root
  select_node := h.select_node
  selectU_node := h.selectU_node
  curDataU_eq := by
    intro c p i d hc hp hi hl hd
    simp only [mapSpec, Option.map_eq_some_iff] at hd
    obtain ⟨a, ha, rfl⟩ := hd
    have := h.curDataU_eq c p i a hc hp hi hl ha
    simp [mapImpl, this]

theorem map_lawfulC {S C δ ε : Type} {I : Impl S C δ} {s : S} {T : TreeSpec δ} {K : CursorRel C}
    (f : δ → ε) (h : LawfulC I s T K) : LawfulC (mapImpl I f) s (mapSpec T f) K where
  toLawful := map_lawful f h.toLawful
  curData_eq := by
    intro c p i hc hp hi hl
    have := h.curData_eq c p i hc hp hi hl
    simp only [mapImpl, this, bind_ok, mapSpec]
    cases T.content (p ++ [i]) <;> rfl

/-! ### fold of a multi-tree -/

/-- The fold is a map over the yielded items. -/
theorem foldImpl_eq {S C δ β : Type} (I : Impl S C (List δ)) (init : β) (f : β → δ → β) :
    foldImpl I init f = mapImpl I (fun ds => ds.foldl f init) := by
  unfold foldImpl mapImpl
  congr 1
  · funext s index li
    cases I.data s index li with
    | error e => rfl
    | ok o => cases o <;> rfl
  · funext c s i
    cases I.curData c s i with
    | error e => rfl
    | ok o => cases o <;> rfl

end Hibit
