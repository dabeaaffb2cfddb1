import Verif.Dense.MatLemmas
import Verif.Dense.Drop
import Verif.TreeOf
/-!
# Materialize: the construction from an exact tree
-/
namespace Hibit.Dense
open Hibit

section
variable {S C α : Type} {I : Impl S C α} {s : S} {T : TreeSpec α} {Kr : CursorRel C}
  {M : Nat → Option α}

/-- The source of a materialization. -/
structure Src (I : Impl S C α) (s : S) (T : TreeSpec α) (Kr : CursorRel C) (M : Nat → Option α) :
    Prop where
  L : Lawful I s T Kr
  hN : I.N = 1
  h9 : I.D ≤ 9
  hc : ∀ i, i < 64 ^ I.D → T.content (path 64 I.D i) = M i
  room : card (64 ^ I.D) M < 2 ^ 32

theorem Src.wf (X : Src I s T Kr M) : SpecWf 64 I.D I.exact T := by
  have := X.L.wf
  rw [X.hN] at this
  exact this

theorem Src.content (X : Src I s T Kr M) {p : List Nat} (hp : ValidPath 64 p)
    (hl : p.length = I.D) : T.content p = M (unpath 64 p) := by
  have h1 := unpath_lt hp
  have h2 := path_unpath hp
  rw [hl] at h1 h2
  rw [← X.hc _ h1, h2]

theorem Src.terminal (X : Src I s T Kr M) {p : List Nat} (hp : ValidPath 64 p)
    (hl : p.length + 1 = I.D) {j : Nat} (hj : j < 64) :
    T.bits p j = (M (unpath 64 p * 64 + j)).isSome := by
  rw [X.wf.terminal p j hp hl hj, X.content (ValidPath.append hp hj) (by simpa using hl),
    unpath_append]
  simp [unpath]

theorem Src.mask (X : Src I s T Kr M) : MaskSpec 64 I.D I.exact M T.bits := by
  have := maskSpec (I := I) (T := T) (M := M) (by rw [X.hN]; exact X.wf) (by rw [X.hN]; exact X.hc)
  rw [X.hN] at this
  exact this

/-- The cursor may select the node `p` with `index`. -/
def Entry (T : TreeSpec α) (Kr : CursorRel C) (p : List Nat) (index : Nat) (c : C) : Prop :=
  (p = [] ∧ index = 0 ∧ Kr.inv c) ∨
    ∃ q, p = q ++ [index] ∧ Kr.pos c q ∧ T.bits q index = true

theorem Src.select (X : Src I s T Kr M) {p : List Nat} {index : Nat} {c : C}
    (hv : ValidPath 64 p) (hl : p.length < I.D) (he : Entry T Kr p index c) :
    ∃ w c', I.selectU c s p.length index = .ok ([w], c') ∧
      (∀ j, j < 64 → w.getLsbD j = T.bits p j) ∧ Kr.pos c' p := by
  have fin : ∀ (m : Mask) (c' : C), I.selectU c s p.length index = .ok (m, c') → m.length = I.N →
      (∀ j, m.bit j = T.bits p j) → Kr.pos c' p → ∃ w c', I.selectU c s p.length index = .ok ([w], c') ∧
      (∀ j, j < 64 → w.getLsbD j = T.bits p j) ∧ Kr.pos c' p := by
    intro m c' h1 h2 h3 h4
    rw [X.hN] at h2
    match m, h2 with
    | [w], _ =>
      refine ⟨w, c', h1, fun j hj => ?_, h4⟩
      rw [← h3 j]
      simp [Mask.bit, Nat.mod_eq_of_lt hj, show j / 64 = 0 by omega]
  have hW : width I.N = 64 := by rw [X.hN]; rfl
  rcases he with ⟨rfl, h0, hi⟩ | ⟨q, rfl, hq, hb⟩
  · obtain ⟨m, c', h1, h2, h3, h4⟩ := X.L.selectU_root c index hi h0
    exact fin m c' h1 h2 h3 h4
  · obtain ⟨hvq, hvi⟩ := ValidPath.of_append hv
    simp only [List.length_append, List.length_singleton] at hl
    obtain ⟨m, c', h1, h2, h3, h4⟩ := X.L.selectU_node c q index hq (by rw [hW]; exact hvq)
      (by rw [hW]; exact hvi) (by omega) hb
    exact fin m c' (by simpa using h1) h2 h3 h4

/-- The vectors hold the elements with keys below `e`. -/
def DataAt (M : Nat → Option α) (st : MSt C α) (e : Nat) : Prop :=
  st.data = none :: (valuesOf e M).map some ∧ st.keys = (usizeMod - 1) :: keysOf e M

theorem DataAt.gap {st : MSt C α} {e n : Nat} (h : DataAt M st e)
    (hn : ∀ r, r < n → M (e + r) = none) : DataAt M st (e + n) := by
  obtain ⟨h1, h2⟩ := Dense.gap n hn
  unfold DataAt
  rw [h1, h2]
  exact h

/-- A stored key below the node `p`. -/
theorem below_of_key {D : Nat} {p : List Nat} {n r : Nat} (hv : ValidPath 64 p)
    (hl : p.length + n = D) (hr : r < 64 ^ n) (hs : (M (unpath 64 p * 64 ^ n + r)).isSome) :
    Below 64 D M p := by
  refine ⟨path 64 n r, ?_, ?_, ?_⟩
  · intro x hx
    rcases List.mem_append.1 hx with h | h
    · exact hv x h
    · exact path_lt n hr x h
  · simp [path_length, hl]
  · rw [unpath_append, path_length, unpath_path 64 n r hr]
    exact hs

theorem unpath_snoc (p : List Nat) (c : Nat) : unpath 64 (p ++ [c]) = unpath 64 p * 64 + c := by
  rw [unpath_append]; simp [unpath]

theorem unpath_lt_pow {D : Nat} {p : List Nat} {n : Nat} (hv : ValidPath 64 p)
    (hl : p.length + n = D) : unpath 64 p * 64 ^ n + 64 ^ n ≤ 64 ^ D := by
  have h := unpath_lt hv
  rw [← hl, Nat.pow_add]
  calc unpath 64 p * 64 ^ n + 64 ^ n = (unpath 64 p + 1) * 64 ^ n := by rw [Nat.succ_mul]
    _ ≤ 64 ^ p.length * 64 ^ n := Nat.mul_le_mul_right _ h

theorem cellsOf_KM {D : Nat} {loc : List Nat → Option Nat} {p : List Nat} (hv : ValidPath 64 p)
    (hl : p.length + 1 = D) {c : Nat} (hc : c < 64) :
    cellsOf D loc (KM D M) p c =
      (M (unpath 64 p * 64 + c)).map (fun _ => .idx (card (unpath 64 p * 64 + c) M + 1)) := by
  rw [cellsOf_term hl, KM_eq (ValidPath.append hv hc) (by simp [hl]), unpath_snoc]
  cases M (unpath 64 p * 64 + c) <;> rfl

/-- from.rs:28-50. -/
theorem makeTerminalNode_spec (X : Src I s T Kr M) {g : Node → Node}
    (hg : ∀ n : Node, n.kind = .term → g n = n) {p : List Nat} {st : MSt C α} {w : Word}
    (hv : ValidPath 64 p) (hl : p.length + 1 = I.D) (hpos : Kr.pos st.cur p)
    (hw : ∀ j, j < 64 → w.getLsbD j = T.bits p j)
    (hf : ∀ a, st.heap.next ≤ a → st.heap.node a = none)
    (hd : DataAt M st (unpath 64 p * 64)) :
    ∃ st', makeTerminalNode I s st w (popcount w + 1) (unpath 64 p * 64) = .ok (st', st.heap.next) ∧
      Kr.pos st'.cur p ∧ DataAt M st' (unpath 64 p * 64 + 64) ∧
      (∀ a, a < st.heap.next → st'.heap.node a = st.heap.node a) ∧
      Part g I.D (KM I.D M) st.heap.next st'.heap (upd (fun _ => none) p (some st.heap.next)) := by
  have hW : width I.N = 64 := by rw [X.hN]; rfl
  have hpop := popcount_le w
  have hbits : ∀ i, i < 64 → w.getLsbD i =
      (cellsOf I.D (fun _ => none) (KM I.D M) p i).isSome := by
    intro i hi
    rw [hw i hi, X.terminal hv hl hi, cellsOf_KM hv hl hi]
    cases M (unpath 64 p * 64 + i) <;> rfl
  let P : Nat → MSt C α → Prop := fun c st' =>
    Kr.pos st'.cur p ∧ DataAt M st' (unpath 64 p * 64 + c) ∧
    (∀ a, a < st.heap.next → st'.heap.node a = st.heap.node a) ∧
    st'.heap.next = st.heap.next + 1 ∧
    (∀ a, st.heap.next + 1 ≤ a → st'.heap.node a = none) ∧
    st'.heap.node st.heap.next = some (openNode .term w (popcount w + 1)
      ((List.range c).filterMap (cellsOf I.D (fun _ => none) (KM I.D M) p)))
  have hlen := filterMap_length_bits hbits
  have hle := unpath_lt_pow (n := 1) hv hl
  simp only [Nat.pow_one] at hle
  have hD9 := pow_lt_usize X.h9
  unfold makeTerminalNode
  rw [rawNew_eq]
  simp only [Heap.alloc]
  obtain ⟨st', e1, h1⟩ := traverse_word (body := terminalBody I s st.heap.next (unpath 64 p * 64))
    (st := { st with heap := ⟨upd st.heap.node st.heap.next
      (some (openNode .term w (popcount w + 1) [])), st.heap.next + 1⟩ }) (w := w) P
    ⟨hpos, hd, fun a ha => upd_ne _ _ (by omega), rfl,
      fun a ha => (upd_ne _ _ (by omega)).trans (hf a (by omega)), by simp⟩
    (by
      rintro c st1 hc hb ⟨q1, q2, q3, q4, q5, q6⟩
      rw [hw c hc, X.terminal hv hl hc] at hb
      obtain ⟨d, hMd⟩ := Option.isSome_iff_exists.1 hb
      have hdat := X.L.curDataU_eq st1.cur p c d q1 (by rw [hW]; exact hv) (by rw [hW]; exact hc) hl (by
        rw [X.content (ValidPath.append hv hc) (by simp [hl]), unpath_snoc]; exact hMd)
      have hcell : cellsOf I.D (fun _ => none) (KM I.D M) p c =
          some (.idx (card (unpath 64 p * 64 + c) M + 1)) := by
        rw [cellsOf_KM hv hl hc, hMd]; rfl
      have hlt := filterMap_take_lt (f := cellsOf I.D (fun _ => none) (KM I.D M) p) hc (by rw [hcell]; rfl)
      rw [hlen] at hlt
      have hidx : st1.data.length % 2 ^ 32 = card (unpath 64 p * 64 + c) M + 1 := by
        rw [q2.1]
        simp only [List.length_cons, List.length_map, card_eq_length]
        have := card_lt (M := M) (e := unpath 64 p * 64 + c) (e' := 64 ^ I.D) (by omega) (by rw [hMd]; rfl)
        have := X.room
        rw [Nat.mod_eq_of_lt (by omega)]
      unfold terminalBody
      rw [hdat]
      simp only [bind_ok, addUsize]
      rw [if_pos (by omega)]
      simp only [bind_ok, pushData, hidx]
      rw [rawPush_open q6 (by omega) (by omega)]
      refine ⟨_, rfl, q1, ?_, ?_, q4, ?_, ?_⟩
      · unfold DataAt
        simp only
        rw [← Nat.add_assoc, valuesOf_succ, keysOf_succ, hMd, q2.1, q2.2]
        simp
      · intro a ha
        simp only [Heap.put]
        rw [upd_ne _ _ (by omega)]; exact q3 a ha
      · intro a ha
        simp only [Heap.put]
        rw [upd_ne _ _ (by omega)]; exact q5 a ha
      · simp only [Heap.put, upd_same]
        rw [List.range_succ, List.filterMap_append]
        simp [hcell])
    (by
      rintro c st1 hc hb ⟨q1, q2, q3, q4, q5, q6⟩
      rw [hw c hc, X.terminal hv hl hc] at hb
      have hMn : M (unpath 64 p * 64 + c) = none := by
        cases h : M (unpath 64 p * 64 + c) with
        | none => rfl
        | some v => rw [h] at hb; cases hb
      refine ⟨q1, ?_, q3, q4, q5, ?_⟩
      · rw [← Nat.add_assoc]
        exact q2.gap (fun r hr => by rw [show r = 0 by omega]; exact hMn)
      · rw [q6, List.range_succ, List.filterMap_append]
        have : cellsOf I.D (fun _ => none) (KM I.D M) p c = none := by
          rw [cellsOf_KM hv hl hc, hMn]; rfl
        simp [this])
  obtain ⟨q1, q2, q3, q4, q5, q6⟩ := h1
  rw [e1]
  simp only [bind_ok]
  rw [rawFinalize_open q6 (by omega) (by omega)]
  simp only [bind_ok, pure_eq_ok]
  refine ⟨_, rfl, q1, q2, ?_, ?_⟩
  · intro a ha
    simp only [Heap.put]
    rw [upd_ne _ _ (by omega)]; exact q3 a ha
  · have hrep := doneNode_rep (k := .term) (s := .idx 0) hbits
    have hkind : kindOf I.D p = .term := by unfold kindOf; rw [if_neg (by omega)]
    have hsent : sent I.D p = .idx 0 := by unfold sent; rw [if_neg (by omega)]
    have hE : Part g I.D (KM I.D M) (st.heap.next + 1) (st'.heap.put st.heap.next
        (doneNode .term w (popcount w + 1)
          ((List.range 64).filterMap (cellsOf I.D (fun _ => none) (KM I.D M) p)) (.idx 0)))
        (fun _ => none) := by
      have := Part.empty (g := g) (D := I.D) (K := KM I.D M) (h := st'.heap.put st.heap.next
        (doneNode .term w (popcount w + 1)
          ((List.range 64).filterMap (cellsOf I.D (fun _ => none) (KM I.D M) p)) (.idx 0))) (by
        intro a ha
        simp only [Heap.put] at ha ⊢
        rw [upd_ne _ _ (by omega)]; exact q5 a (by omega))
      simp only [Heap.put, q4] at this ⊢
      exact this
    refine hE.close (n := doneNode .term w (popcount w + 1)
      ((List.range 64).filterMap (cellsOf I.D (fun _ => none) (KM I.D M) p)) (.idx 0))
      (fun q a e => by cases e) (by simp [Heap.put]) (by rw [hkind]; rfl) ?_
    rw [hg _ rfl, hsent]
    exact hrep

/-- The nodes of an exact tree: the root and every node with a stored key below. -/
def LiveE (D : Nat) (M : Nat → Option α) (q : List Nat) : Prop :=
  q.length < D ∧ (q = [] ∨ Below 64 D M q)

theorem Below.mono {D : Nat} {p q : List Nat} (h : Below 64 D M q) (hp : p <+: q) :
    Below 64 D M p := by
  obtain ⟨x, rfl⟩ := hp
  obtain ⟨y, h1, h2, h3⟩ := h
  exact ⟨x ++ y, by simpa using h1, by simpa using h2, by simpa using h3⟩

theorem Below.valid {D : Nat} {p : List Nat} (h : Below 64 D M p) : ValidPath 64 p := by
  obtain ⟨y, h1, -, -⟩ := h
  exact fun x hx => h1 x (by simp [hx])

theorem blockStart_eq {D n index m : Nat} (hD : n + m + 1 = D) (h9 : D ≤ 9) (hi : index < 64) :
    blockStart D n index = .ok (index * 64 ^ m) := by
  unfold blockStart shlUsize
  have e : ilog2w 1 = 6 := by decide
  rw [e, show D - n - 1 = m by omega, if_pos (by omega)]
  have e2 : (2 : Nat) ^ (6 * m) = 64 ^ m := by rw [Nat.pow_mul]
  rw [e2]
  have hlt : index * 64 ^ m < usizeMod := by
    have h1 : index * 64 ^ m ≤ 64 * 64 ^ m := Nat.mul_le_mul_right _ (by omega)
    have h2 : 64 * 64 ^ m = 64 ^ (m + 1) := by rw [Nat.pow_succ, Nat.mul_comm]
    have h3 : 64 ^ (m + 1) ≤ 64 ^ 9 := Nat.pow_le_pow_right (by decide) (by omega)
    have : 64 ^ 9 < usizeMod := by decide
    omega
  rw [Nat.mod_eq_of_lt hlt]

/-- The children of node `p` below position `c` have been placed. -/
def DomC (Live : List Nat → Prop) (p : List Nat) (c : Nat) (loc : List Nat → Option Nat) : Prop :=
  ∀ q, (∃ a, loc q = some a) ↔ ∃ i, i < c ∧ (p ++ [i]) <+: q ∧ Live q

/-- The subtree of `p` has been placed. -/
def DomP (Live : List Nat → Prop) (p : List Nat) (loc : List Nat → Option Nat) : Prop :=
  ∀ q, (∃ a, loc q = some a) ↔ p <+: q ∧ Live q

theorem snoc_prefix_ne {p q : List Nat} {i : Nat} (h : (p ++ [i]) <+: q) : p <+: q ∧ q ≠ p := by
  refine ⟨(List.prefix_append p [i]).trans h, ?_⟩
  rintro rfl
  have := h.length_le
  simp at this
  omega

theorem snoc_prefix_unique {p q : List Nat} {i j : Nat} (h1 : (p ++ [i]) <+: q)
    (h2 : (p ++ [j]) <+: q) : i = j := by
  obtain ⟨x, rfl⟩ := h1
  obtain ⟨y, h2⟩ := h2
  simp only [List.append_assoc, List.append_cancel_left_eq, List.singleton_append,
    List.cons.injEq] at h2
  exact h2.1.symm

theorem DomC.supp {Live : List Nat → Prop} {p : List Nat} {c : Nat} {loc : List Nat → Option Nat}
    (h : DomC Live p c loc) {q : List Nat} {a : Nat} (hq : loc q = some a) :
    p <+: q ∧ q ≠ p ∧ ¬ (p ++ [c]) <+: q := by
  obtain ⟨i, hi, h1, -⟩ := (h q).1 ⟨a, hq⟩
  obtain ⟨g1, g2⟩ := snoc_prefix_ne h1
  refine ⟨g1, g2, fun h2 => ?_⟩
  have := snoc_prefix_unique h1 h2
  omega

theorem DomC.join {Live : List Nat → Prop} {p : List Nat} {c : Nat} {loc loc2 : List Nat → Option Nat}
    (h : DomC Live p c loc) (h2 : DomP Live (p ++ [c]) loc2) :
    DomC Live p (c + 1) (joinLoc (p ++ [c]) loc loc2) := by
  intro q
  unfold joinLoc
  by_cases hq : (p ++ [c]) <+: q
  · rw [if_pos hq, h2 q]
    constructor
    · rintro ⟨_, h⟩; exact ⟨c, by omega, hq, h⟩
    · rintro ⟨_, _, _, h⟩; exact ⟨hq, h⟩
  · rw [if_neg hq, h q]
    constructor
    · rintro ⟨i, hi, h⟩; exact ⟨i, by omega, h⟩
    · rintro ⟨i, hi, hx, hl⟩
      refine ⟨i, ?_, hx, hl⟩
      by_cases e : i = c
      · subst e; exact absurd hx hq
      · omega

theorem DomC.skip {Live : List Nat → Prop} {p : List Nat} {c : Nat} {loc : List Nat → Option Nat}
    (h : DomC Live p c loc) (hno : ∀ q, (p ++ [c]) <+: q → ¬ Live q) : DomC Live p (c + 1) loc := by
  intro q
  rw [h q]
  constructor
  · rintro ⟨i, hi, h⟩; exact ⟨i, by omega, h⟩
  · rintro ⟨i, hi, hx, hl⟩
    refine ⟨i, ?_, hx, hl⟩
    by_cases e : i = c
    · subst e; exact absurd hl (hno q hx)
    · omega

theorem DomC.close {Live : List Nat → Prop} (hval : ∀ q, Live q → ValidPath 64 q) {p : List Nat}
    {loc : List Nat → Option Nat} (h : DomC Live p 64 loc) (hp : Live p) (a : Nat) :
    DomP Live p (upd loc p (some a)) := by
  intro q
  by_cases e : q = p
  · subst e
    simp only [upd_same]
    exact ⟨fun _ => ⟨List.prefix_refl q, hp⟩, fun _ => ⟨a, rfl⟩⟩
  · rw [upd_ne _ _ e, h q]
    constructor
    · rintro ⟨i, _, h1, h2⟩; exact ⟨(snoc_prefix_ne h1).1, h2⟩
    · rintro ⟨h1, h2⟩
      rcases prefix_cases h1 with rfl | ⟨i, hi⟩
      · exact absurd rfl e
      · obtain ⟨x, rfl⟩ := hi
        refine ⟨i, ?_, ⟨x, rfl⟩, h2⟩
        exact hval _ h2 i (by simp)

/-- from.rs:53-94. -/
theorem fromExact_spec (X : Src I s T Kr M) (hex : I.exact = true) :
    ∀ (left : Nat) (p : List Nat) (index : Nat) (st : MSt C α), p.length + left + 1 = I.D →
      ValidPath 64 p → LiveE I.D M p → Entry T Kr p index st.cur →
      (∀ a, st.heap.next ≤ a → st.heap.node a = none) →
      DataAt M st (unpath 64 p * 64 ^ (left + 1)) →
      ∃ st' a loc, fromExact I s left st index (unpath 64 p * 64 ^ (left + 1)) = .ok (st', a) ∧
        Kr.pos st'.cur p ∧ DataAt M st' (unpath 64 p * 64 ^ (left + 1) + 64 ^ (left + 1)) ∧
        (∀ a, a < st.heap.next → st'.heap.node a = st.heap.node a) ∧
        Part id I.D (KM I.D M) st.heap.next st'.heap loc ∧ loc p = some a ∧
        DomP (LiveE I.D M) p loc := by
  intro left
  induction left with
  | zero =>
    intro p index st hl hv hlive he hf hd
    simp only [Nat.zero_add, Nat.pow_one] at hd ⊢
    obtain ⟨w, c', e1, hw, hpos⟩ := X.select hv (by omega) he
    obtain ⟨st', f1, f2, f3, f4, f5⟩ := makeTerminalNode_spec X (g := id) (fun _ _ => rfl)
      (st := { st with cur := c' }) hv (by omega) hpos hw hf hd
    refine ⟨st', st.heap.next, _, ?_, f2, f3, f4, f5, by simp, ?_⟩
    · unfold fromExact
      rw [if_pos hex, show I.D - 1 = p.length by omega, e1]
      simp only [bind_ok, getU, List.getElem?_cons_zero, capOf_eq]
      exact f1
    · intro q
      by_cases e : q = p
      · subst e
        simp only [upd_same]
        exact ⟨fun _ => ⟨List.prefix_refl q, hlive⟩, fun _ => ⟨_, rfl⟩⟩
      · rw [upd_ne _ _ e]
        constructor
        · rintro ⟨_, h⟩; cases h
        · rintro ⟨h1, h2, _⟩
          have := h1.length_le
          exact absurd (h1.eq_of_length (by omega)).symm e
  | succ left ih =>
    intro p index st hl hv hlive he hf hd
    obtain ⟨w, c', e1, hw, hpos⟩ := X.select hv (by omega) he
    have hpop := popcount_le w
    have hbelow : ∀ c, c < 64 → (T.bits p c = true ↔ Below 64 I.D M (p ++ [c])) := fun c _ =>
      ⟨fun h => X.mask.exact hex p c hv (by omega) h, fun h => X.mask.below p c (by omega) h⟩
    have hval : ∀ q, LiveE I.D M q → ValidPath 64 q := by
      rintro q ⟨_, rfl | h⟩
      · exact ValidPath.nil
      · exact Below.valid h
    have hliveC : ∀ c, c < 64 → (T.bits p c = true ↔ LiveE I.D M (p ++ [c])) := by
      intro c hc
      rw [hbelow c hc]
      constructor
      · intro h; exact ⟨by simp; omega, .inr h⟩
      · rintro ⟨_, h | h⟩
        · simp at h
        · exact h
    -- the loop
    let P : Nat → MSt C α → Prop := fun c st' =>
      ∃ loc, Kr.pos st'.cur p ∧
      DataAt M st' (unpath 64 p * 64 ^ (left + 2) + c * 64 ^ (left + 1)) ∧
      (∀ a, a < st.heap.next → st'.heap.node a = st.heap.node a) ∧
      st'.heap.node st.heap.next = some (openNode .branch w (popcount w + 1)
        ((List.range c).filterMap (cellsOf I.D loc (KM I.D M) p))) ∧
      Part id I.D (KM I.D M) (st.heap.next + 1) st'.heap loc ∧ DomC (LiveE I.D M) p c loc
    have hblk : ∀ c, unpath 64 p * 64 ^ (left + 2) + c * 64 ^ (left + 1) =
        unpath 64 (p ++ [c]) * 64 ^ (left + 1) := by
      intro c
      rw [unpath_snoc, Nat.add_mul, Nat.pow_succ 64 (left + 1), Nat.mul_assoc,
        Nat.mul_comm 64 (64 ^ (left + 1))]
    have hD9 := pow_lt_usize X.h9
    obtain ⟨st', t1, t2⟩ := traverse_word
      (body := exactBody I.D p.length st.heap.next (unpath 64 p * 64 ^ (left + 2)) (fromExact I s left))
      (st := { st with cur := c', heap := ⟨upd st.heap.node st.heap.next
        (some (openNode .branch w (popcount w + 1) [])), st.heap.next + 1⟩ }) (w := w) P
      (by
        refine ⟨fun _ => none, hpos, ?_, fun a ha => upd_ne _ _ (by omega), by simp, ?_, ?_⟩
        · rw [Nat.zero_mul, Nat.add_zero]; exact hd
        · have := Part.empty (g := id) (D := I.D) (K := KM I.D M) (h := (⟨upd st.heap.node st.heap.next
            (some (openNode .branch w (popcount w + 1) [])), st.heap.next + 1⟩ : Heap)) (by
            intro a ha
            simp only at ha ⊢
            rw [upd_ne _ _ (by omega)]; exact hf a (by omega))
          exact this
        · intro q
          exact ⟨fun ⟨_, h⟩ => (by cases h), fun ⟨i, hi, _⟩ => (by omega)⟩)
      (by
        rintro c st1 hc hb ⟨loc, q1, q2, q3, q4, q5, q6⟩
        rw [hw c hc] at hb
        have hvc := ValidPath.append hv hc
        have hle := unpath_lt_pow (p := p ++ [c]) (n := left + 1) hvc (D := I.D) (by simp; omega)
        rw [hblk] at q2
        obtain ⟨st2, a, loc2, r1, r2, r3, r4, r5, r6, r7⟩ := ih (p ++ [c]) c st1 (by simp; omega) hvc
          ((hliveC c hc).1 hb) (.inr ⟨p, rfl, q1, hb⟩) q5.fresh q2
        have hcell : cellsOf I.D (joinLoc (p ++ [c]) loc loc2) (KM I.D M) p c =
            some (.ptr (.heap a)) := by
          rw [cellsOf_branch (by omega)]
          unfold joinLoc
          rw [if_pos (List.prefix_refl _), r6]; rfl
        have hold : (List.range c).filterMap (cellsOf I.D (joinLoc (p ++ [c]) loc loc2) (KM I.D M) p) =
            (List.range c).filterMap (cellsOf I.D loc (KM I.D M) p) := by
          apply filterMap_congr_mem
          intro i hi
          simp only [List.mem_range] at hi
          rw [cellsOf_branch (by omega), cellsOf_branch (by omega)]
          unfold joinLoc
          rw [if_neg]
          intro h
          have := snoc_prefix_unique h (List.prefix_refl _)
          omega
        have hlt : ((List.range c).filterMap (cellsOf I.D loc (KM I.D M) p)).length < popcount w + 1 := by
          have h1 : ((List.range c).filterMap (cellsOf I.D loc (KM I.D M) p)).length ≤
              ((List.range 64).filterMap (fun i => if w.getLsbD i then some (Cell.idx 0) else none)).length := by
            refine Nat.le_trans ?_ (filterMap_take_le _ (show c ≤ 64 by omega))
            rw [List.length_filterMap_eq_countP, List.length_filterMap_eq_countP]
            apply List.countP_mono_left
            intro i hi
            simp only [List.mem_range] at hi
            rw [cellsOf_branch (by omega)]
            cases hloc : loc (p ++ [i]) with
            | none => simp
            | some b =>
              obtain ⟨j, hj, hj1, hj2⟩ := (q6 _).1 ⟨b, hloc⟩
              have := (hliveC i (by omega)).2 hj2
              rw [← hw i (by omega)] at this
              simp [this]
          rw [filterMap_length_bits (w := w) (by intro i _; cases w.getLsbD i <;> simp)] at h1
          omega
        unfold exactBody
        rw [blockStart_eq (m := left + 1) (by omega) X.h9 hc]
        simp only [bind_ok, addUsize]
        rw [hblk, if_pos (by have := Nat.le_trans (Nat.le_add_right _ _) hle; omega)]
        simp only [bind_ok, r1]
        have hnode : st2.heap.node st.heap.next = some (openNode .branch w (popcount w + 1)
            ((List.range c).filterMap (cellsOf I.D loc (KM I.D M) p))) := by
          rw [r4 _ (by have := q5.lo_le; omega)]; exact q4
        rw [rawPush_open hnode hlt (by omega)]
        have hlo : st.heap.next < st2.heap.next := by
          have := q5.lo_le; have := r5.lo_le; omega
        refine ⟨_, rfl, joinLoc (p ++ [c]) loc loc2, ?_, ?_, ?_, ?_, ?_, q6.join r7⟩
        · have := X.L.pos_take _ _ p.length r2
          simpa using this
        · rw [hblk, unpath_snoc, show unpath 64 p * 64 + (c + 1) = unpath 64 p * 64 + c + 1 by omega,
            Nat.succ_mul, ← unpath_snoc]
          exact r3
        · intro b hb'
          simp only [Heap.put]
          rw [upd_ne _ _ (by omega), r4 b (by have := q5.lo_le; omega)]; exact q3 b hb'
        · simp only [Heap.put, upd_same]
          rw [List.range_succ, List.filterMap_append, hold]
          simp [hcell]
        · have := Part.join q5 r5 r4 (fun q b h => q6.supp h) (fun q b h => ((r7 q).1 ⟨b, h⟩).1)
          refine this.congr rfl ?_
          intro b hb'
          simp only [Heap.put]
          rw [upd_ne _ _ (by omega)])
      (by
        rintro c st1 hc hb ⟨loc, q1, q2, q3, q4, q5, q6⟩
        rw [hw c hc] at hb
        have hno : ¬ Below 64 I.D M (p ++ [c]) := fun h => by
          rw [(hbelow c hc).2 h] at hb; cases hb
        have hno' : ∀ q, (p ++ [c]) <+: q → ¬ LiveE I.D M q := by
          rintro q hq ⟨_, rfl | h⟩
          · have := hq.length_le; simp at this
          · exact hno (Below.mono h hq)
        refine ⟨loc, q1, ?_, q3, ?_, q5, q6.skip hno'⟩
        · rw [Nat.succ_mul, ← Nat.add_assoc]
          refine q2.gap (fun r hr => ?_)
          cases hM : M (unpath 64 p * 64 ^ (left + 2) + c * 64 ^ (left + 1) + r) with
          | none => rfl
          | some v =>
            exfalso
            refine hno (below_of_key (n := left + 1) (r := r) (ValidPath.append hv hc)
              (by simp; omega) hr ?_)
            rw [← hblk, hM]; rfl
        · rw [q4, List.range_succ, List.filterMap_append]
          have : cellsOf I.D loc (KM I.D M) p c = none := by
            rw [cellsOf_branch (by omega)]
            cases hloc : loc (p ++ [c]) with
            | none => rfl
            | some b => exact absurd (List.prefix_refl _) (q6.supp hloc).2.2
          simp [this])
    obtain ⟨loc, q1, q2, q3, q4, q5, q6⟩ := t2
    have hbits : ∀ i, i < 64 → w.getLsbD i = (cellsOf I.D loc (KM I.D M) p i).isSome := by
      intro i hi
      rw [hw i hi, cellsOf_branch (by omega), Option.isSome_map, Bool.eq_iff_iff, hliveC i hi,
        Option.isSome_iff_exists, q6]
      constructor
      · intro h; exact ⟨i, hi, List.prefix_refl _, h⟩
      · rintro ⟨_, _, _, h⟩; exact h
    have hlen := filterMap_length_bits hbits
    refine ⟨{ st' with heap := st'.heap.put st.heap.next (doneNode .branch w (popcount w + 1)
      ((List.range 64).filterMap (cellsOf I.D loc (KM I.D M) p))
      (.ptr (.stat (9 - I.D + (p.length + 1))))) }, st.heap.next, upd loc p (some st.heap.next),
      ?_, q1, ?_, ?_, ?_, by simp, q6.close hval hlive _⟩
    · unfold fromExact
      rw [if_pos hex]
      simp only
      rw [show I.D - 1 - (left + 1) = p.length by omega, e1]
      simp only [bind_ok, getU, List.getElem?_cons_zero, capOf_eq, rawNew_eq, Heap.alloc]
      rw [t1]
      have hnine := X.h9
      simp only [bind_ok, emptyNode]
      rw [if_pos (by omega)]
      simp only [bind_ok]
      rw [rawFinalize_open q4 (by omega) (by omega)]
      rfl
    · have : 64 ^ (left + 2) = 64 * 64 ^ (left + 1) := by rw [Nat.pow_succ, Nat.mul_comm]
      rw [this] at q2 ⊢
      exact q2
    · intro b hb
      simp only [Heap.put]
      rw [upd_ne _ _ (by omega)]; exact q3 b hb
    · have hkind : kindOf I.D p = .branch := by unfold kindOf; rw [if_pos (by omega)]
      have hsent : sent I.D p = .ptr (.stat (9 - I.D + (p.length + 1))) := by
        unfold sent; rw [if_pos (by omega)]
      have hE : Part id I.D (KM I.D M) (st.heap.next + 1) (st'.heap.put st.heap.next
          (doneNode .branch w (popcount w + 1)
          ((List.range 64).filterMap (cellsOf I.D loc (KM I.D M) p))
          (.ptr (.stat (9 - I.D + (p.length + 1)))))) loc := by
        refine q5.congr rfl ?_
        intro b hb
        simp only [Heap.put]
        rw [upd_ne _ _ (by omega)]
      refine hE.close (n := doneNode .branch w (popcount w + 1)
          ((List.range 64).filterMap (cellsOf I.D loc (KM I.D M) p))
          (.ptr (.stat (9 - I.D + (p.length + 1))))) (fun q b h => ?_) (by simp [Heap.put])
          (by rw [hkind]; rfl) ?_
      · have := q6.supp h
        exact ⟨this.1, this.2.1⟩
      · rw [hsent]
        exact doneNode_rep hbits

/-- Materializing an exact tree gives a tree representing its content. -/
theorem materialize_exact (X : Src I s T Kr M) (hex : I.exact = true)
    (hout : ∀ k, 64 ^ I.D ≤ k → M k = none) :
    ∃ t, materialize I s = .ok t ∧ DRep AllNodes I.D t M ∧
      t.keys = (usizeMod - 1) :: keysOf (64 ^ I.D) M ∧
      t.data = none :: (valuesOf (64 ^ I.D) M).map some := by
  have hD := X.L.cfg.depth
  obtain ⟨c, e0, hi⟩ := X.L.new_ok
  obtain ⟨st, a, loc, e1, -, hd, -, hP, hloc, hdom⟩ := fromExact_spec X hex (I.D - 1) [] 0
    ⟨⟨fun _ => none, 0⟩, c, [none], [usizeMod - 1]⟩ (by simp; omega) ValidPath.nil
    ⟨by simp; omega, .inl rfl⟩ (.inl ⟨rfl, rfl, hi⟩) (fun _ _ => rfl)
    (by simp [DataAt, valuesOf, keysOf])
  rw [show I.D - 1 + 1 = I.D by omega] at hd e1
  simp only [unpath_nil, Nat.zero_mul, Nat.zero_add] at hd e1
  refine ⟨⟨st.heap, .heap a, st.data, st.keys⟩, ?_, ⟨loc, KM I.D M, ?_, ?_, ?_, ?_⟩, hd.2, hd.1⟩
  · unfold materialize fromRoot
    rw [e0]
    simp only [bind_ok]
    rw [if_pos hex, e1]
    rfl
  · have hlive : ∀ p a, loc p = some a → LiveE I.D M p := fun p a h => ((hdom p).1 ⟨a, h⟩).2
    refine ⟨⟨fun p a h => (hP.node p a h).2, hP.inj, fun a n h => hP.cover a n (Nat.zero_le _) h, hP.fresh⟩, ⟨a, hloc, rfl⟩,
      ?_, ?_, ?_, ?_⟩
    · intro p a h
      obtain ⟨h1, h2⟩ := hlive p a h
      refine ⟨?_, h1⟩
      rcases h2 with rfl | h2
      · exact ValidPath.nil
      · exact Below.valid h2
    · intro p i a h
      obtain ⟨h1, h2⟩ := hlive _ a h
      rcases h2 with h2 | h2
      · simp at h2
      · exact (hdom p).2 ⟨List.nil_prefix, by simp at h1; omega, .inr (Below.mono h2 (List.prefix_append p [i]))⟩
    · intro P d h
      obtain ⟨h1, h2, -⟩ := KM_some h
      exact ⟨h1, h2⟩
    · intro p i d h
      obtain ⟨h1, h2, h3, -⟩ := KM_some h
      refine (hdom p).2 ⟨List.nil_prefix, by simp at h2; omega, .inr ⟨[i], h1, h2, h3⟩⟩
  · intro p a _ h hne
    obtain ⟨h1, h2⟩ := ((hdom p).1 ⟨a, h⟩).2
    rcases h2 with h2 | ⟨q, g1, g2, g3⟩
    · exact absurd h2 hne
    · cases q with
      | nil => simp at g2; omega
      | cons i q =>
        have hi64 : i < 64 := g1 i (by simp)
        refine ⟨i, hi64, ?_⟩
        by_cases hb : p.length + 1 < I.D
        · rw [cellsOf_branch hb]
          obtain ⟨b, hb'⟩ := (hdom (p ++ [i])).2 ⟨List.nil_prefix, by simpa using hb,
            .inr ⟨q, by simpa using g1, by simpa using g2, by simpa using g3⟩⟩
          rw [hb']; simp
        · have hq : q = [] := by
            apply List.length_eq_zero_iff.1
            simp at g2; omega
          subst hq
          rw [cellsOf_term (by omega), KM_eq g1 g2]
          obtain ⟨v, hv⟩ := Option.isSome_iff_exists.1 g3
          rw [hv]; simp
  · simp only
    rw [hd.1, hd.2]
    exact DInv.listing X.room
  · intro k
    simp only [hd.1]
    exact den_listing hout k

end

end Hibit.Dense
