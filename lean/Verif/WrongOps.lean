import Verif.Wrong
/-!
# Trees with wrong answers: the combinators
-/
namespace Hibit

section
variable {S Cur δ : Type} {I : Impl S Cur δ} {s : S} {u h : Bool}

theorem widths {N M : Nat} (e : N = M) : width N = width M := by rw [e]

/-- A tree that keeps the full contract. -/
theorem LawfulC.sturdy {T : TreeSpec δ} {K : CursorRel Cur} (L : LawfulC I s T K) :
    Sturdy tm true true I s := by
  have hD := L.cfg.depth
  refine ⟨fun c ms b => K.inv c ∧ (ms = [] ∨ ∃ p, ms.length = p.length + 1 ∧ ms.length ≤ I.D ∧
    ValidPath (width I.N) p ∧ K.pos c p ∧ (b = true → K.posC c p) ∧
    ∀ (n : Nat) (m : Mask), ms[n]? = some m → ∀ j, m.bit j = T.bits (p.take n) j),
    L.cfg, ?_, ?_, ?_, ?_, ?_, ?_, ?_⟩
  · rintro c ms b ⟨-, rfl | ⟨p, h1, h2, -⟩⟩
    · simp
    · exact h2
  · intro p hp hl
    rw [L.data_eq p hp hl]
    exact Nub.ok trivial
  · obtain ⟨c, e, hc⟩ := L.new_ok
    rw [e]
    exact Nub.ok ⟨hc, Or.inl rfl⟩
  · rintro c ms b n i ⟨hinv, hms⟩ hn hnD hi h0
    rcases Nat.eq_zero_or_pos n with rfl | hpos
    · obtain ⟨m, c', e, hml, hb, hpC⟩ := L.select_root c i hinv (h0 rfl)
      rw [e]
      refine Nub.ok ⟨hml, L.pos_inv _ _ (L.posC_pos _ _ hpC), Or.inr ⟨[], by simp, by simp; omega,
        ValidPath.nil, L.posC_pos _ _ hpC, fun _ => hpC, ?_⟩⟩
      intro n m' hm
      have hj : n = 0 := by
        have := (List.getElem?_eq_some_iff.1 hm).1
        simp at this; exact this
      subst hj
      simp at hm
      subst hm
      simpa using hb
    · rcases hms with rfl | ⟨p, hpl, hml', hpv, hpp, hpC, hbits⟩
      · simp at hn; omega
      · have hl : (p.take (n - 1)).length = n - 1 := by simp; omega
        obtain ⟨m, c', e, hml, hb, hC⟩ := L.select_node c (p.take (n - 1)) i (L.pos_take _ _ _ hpp)
          (hpv.take _) hi (by omega)
        rw [hl, Nat.sub_add_cancel hpos] at e
        rw [e]
        refine Nub.ok ⟨hml, L.pos_inv _ _ (L.posC_pos _ _ hC), Or.inr ⟨p.take (n - 1) ++ [i], ?_, ?_,
          (hpv.take _).append hi, L.posC_pos _ _ hC, fun _ => hC, ?_⟩⟩
        · simp; omega
        · simp; omega
        · intro k m' hm
          by_cases hk : k = n
          · subst hk
            rw [List.getElem?_append_right (by simp; omega)] at hm
            have : k - (ms.take k).length = 0 := by simp; omega
            rw [this] at hm
            cases hm
            rw [List.take_of_length_le (by simp; omega)]
            exact hb
          · have hkl : k < n := by
              have := (List.getElem?_eq_some_iff.1 hm).1
              simp at this; omega
            rw [List.getElem?_append_left (by simp; omega), List.getElem?_take_of_lt hkl] at hm
            rw [List.take_append_of_le_length (by rw [hl]; omega), List.take_take,
              Nat.min_eq_left (by omega)]
            exact hbits k m' hm
  · rintro c ms b n i ⟨hinv, hms⟩ hn hnD hi h0 hbit
    rcases Nat.eq_zero_or_pos n with rfl | hpos
    · obtain ⟨m, c', e, hml, hb, hpC⟩ := L.selectU_root c i hinv (h0 rfl)
      rw [e]
      refine Nub.ok ⟨hml, L.pos_inv _ _ hpC, Or.inr ⟨[], by simp, by simp; omega,
        ValidPath.nil, hpC, (fun e => by cases e), ?_⟩⟩
      intro n m' hm
      have hj : n = 0 := by
        have := (List.getElem?_eq_some_iff.1 hm).1
        simp at this; exact this
      subst hj
      simp at hm
      subst hm
      simpa using hb
    · rcases hms with rfl | ⟨p, hpl, hml', hpv, hpp, hpC, hbits⟩
      · simp at hn; omega
      · have hl : (p.take (n - 1)).length = n - 1 := by simp; omega
        have hgm : ms[n - 1]? = some (ms[n - 1]'(by omega)) := List.getElem?_eq_getElem (by omega)
        have hTb : T.bits (p.take (n - 1)) i = true := by
          rw [← hbits _ _ hgm]; exact hbit _ hpos hgm
        obtain ⟨m, c', e, hml, hb, hC⟩ := L.selectU_node c (p.take (n - 1)) i (L.pos_take _ _ _ hpp)
          (hpv.take _) hi (by omega) hTb
        rw [hl, Nat.sub_add_cancel hpos] at e
        rw [e]
        refine Nub.ok ⟨hml, L.pos_inv _ _ hC, Or.inr ⟨p.take (n - 1) ++ [i], ?_, ?_,
          (hpv.take _).append hi, hC, (fun e => by cases e), ?_⟩⟩
        · simp; omega
        · simp; omega
        · intro k m' hm
          by_cases hk : k = n
          · subst hk
            rw [List.getElem?_append_right (by simp; omega)] at hm
            have : k - (ms.take k).length = 0 := by simp; omega
            rw [this] at hm
            cases hm
            rw [List.take_of_length_le (by simp; omega)]
            exact hb
          · have hkl : k < n := by
              have := (List.getElem?_eq_some_iff.1 hm).1
              simp at this; omega
            rw [List.getElem?_append_left (by simp; omega), List.getElem?_take_of_lt hkl] at hm
            rw [List.take_append_of_le_length (by rw [hl]; omega), List.take_take,
              Nat.min_eq_left (by omega)]
            exact hbits k m' hm
  · rintro c ms i ⟨hinv, hms⟩ hl hi
    rcases hms with rfl | ⟨p, hpl, hml', hpv, hpp, hpC, hbits⟩
    · simp at hl; omega
    · rw [L.curData_eq c p i (hpC rfl) hpv hi (by omega)]
      refine Nub.ok fun _ m hm hb => ?_
      rw [hbits _ _ hm, List.take_of_length_le (by omega), L.wf.terminal p i hpv (by omega) hi] at hb
      exact hb
  · rintro - c ms b i ⟨hinv, hms⟩ hl hi hb
    rcases hms with rfl | ⟨p, hpl, hml', hpv, hpp, hpC, hbits⟩
    · simp at hl; omega
    · have hgm : ms[I.D - 1]? = some (ms[I.D - 1]'(by omega)) := List.getElem?_eq_getElem (by omega)
      have := hb _ hgm
      rw [hbits _ _ hgm, List.take_of_length_le (by omega), L.wf.terminal p i hpv (by omega) hi] at this
      obtain ⟨d, hd⟩ := Option.isSome_iff_exists.1 this
      rw [L.curDataU_eq c p i d hpp hpv hi (by omega) hd]
      exact Nub.ok trivial

/-- `map` -/
theorem map_sturdy {ε : Type} (f : δ → ε) (hs : Sturdy tm u h I s) : Sturdy tm u h (mapImpl I f) s := by
  obtain ⟨ok, hk⟩ := hs
  refine ⟨ok, hk.cfg, hk.len, ?_, hk.create, hk.select, hk.selectU, ?_, ?_⟩
  · intro p hp hl
    refine (hk.data p hp hl).bind fun d _ => ?_
    cases d <;> exact Nub.pure trivial
  · intro c ms i h1 h2 h3
    refine (hk.curData c ms i h1 h2 h3).bind fun d hd => ?_
    cases d with
    | none =>
      refine Nub.pure fun e m hm hb => ?_
      have := hd e m hm hb
      cases this
    | some d => exact Nub.pure fun _ _ _ _ => rfl
  · intro e c ms b i h1 h2 h3 h4
    exact (hk.curDataU e c ms b i h1 h2 h3 h4).bind fun d _ => Nub.pure trivial

/-- `multi_map_fold` -/
theorem fold_sturdy {β : Type} {J : Impl S Cur (List δ)} (z : β) (f : β → δ → β)
    (hs : Sturdy tm u h J s) : Sturdy tm u h (foldImpl J z f) s := by
  obtain ⟨ok, hk⟩ := hs
  refine ⟨ok, hk.cfg, hk.len, ?_, hk.create, hk.select, hk.selectU, ?_, ?_⟩
  · intro p hp hl
    refine (hk.data p hp hl).bind fun d _ => ?_
    cases d <;> exact Nub.pure trivial
  · intro c ms i h1 h2 h3
    refine (hk.curData c ms i h1 h2 h3).bind fun d hd => ?_
    cases d with
    | none =>
      refine Nub.pure fun e m hm hb => ?_
      have := hd e m hm hb
      cases this
    | some d => exact Nub.pure fun _ _ _ _ => rfl
  · intro e c ms b i h1 h2 h3 h4
    exact (hk.curDataU e c ms b i h1 h2 h3 h4).bind fun d _ => Nub.pure trivial

end

section
variable {S0 C0 δ0 S1 C1 δ1 : Type} {I0 : Impl S0 C0 δ0} {I1 : Impl S1 C1 δ1} {a : S0} {b : S1}

/-- The masks of a pair of sources, level by level. -/
def PairMasks (op : Mask → Mask → Mask) (N : Nat) (ms0 ms1 ms : List Mask) : Prop :=
  ms0.length = ms.length ∧ ms1.length = ms.length ∧
  ∀ (n : Nat) (m0 m1 m : Mask), ms0[n]? = some m0 → ms1[n]? = some m1 → ms[n]? = some m →
    m0.length = N ∧ m1.length = N ∧ m = op m0 m1

theorem PairMasks.snoc {op : Mask → Mask → Mask} {N : Nat} {ms0 ms1 ms : List Mask}
    (hp : PairMasks op N ms0 ms1 ms) {n : Nat} (hn : n ≤ ms.length) {m0 m1 : Mask}
    (h0 : m0.length = N) (h1 : m1.length = N) :
    PairMasks op N (ms0.take n ++ [m0]) (ms1.take n ++ [m1]) (ms.take n ++ [op m0 m1]) := by
  obtain ⟨e0, e1, hp⟩ := hp
  refine ⟨by simp; omega, by simp; omega, ?_⟩
  intro k x0 x1 x g0 g1 g
  have hk : k < n + 1 := by
    have := (List.getElem?_eq_some_iff.1 g).1
    simp at this; omega
  by_cases hkn : k = n
  · subst hkn
    rw [List.getElem?_append_right (by simp; omega),
      show k - (ms0.take k).length = 0 by simp; omega] at g0
    rw [List.getElem?_append_right (by simp; omega),
      show k - (ms1.take k).length = 0 by simp; omega] at g1
    rw [List.getElem?_append_right (by simp; omega),
      show k - (ms.take k).length = 0 by simp; omega] at g
    cases g0; cases g1; cases g
    exact ⟨h0, h1, rfl⟩
  · have hkl : k < n := by omega
    rw [List.getElem?_append_left (by simp; omega), List.getElem?_take_of_lt hkl] at g0 g1 g
    exact hp k x0 x1 x g0 g1 g

/-- `intersection` -/
theorem inter_sturdy {u h : Bool} (hN : I0.N = I1.N) (hD : I0.D = I1.D) (ha : Sturdy tm u h I0 a)
    (hb : Sturdy tm u h I1 b) : Sturdy tm u h (interImpl I0 I1) (a, b) := by
  obtain ⟨k0, hk0⟩ := ha
  obtain ⟨k1, hk1⟩ := hb
  refine ⟨fun c ms x => ∃ ms0 ms1, k0 c.1 ms0 x ∧ k1 c.2 ms1 x ∧ PairMasks andMask I0.N ms0 ms1 ms,
    hk0.cfg, ?_, ?_, ?_, ?_, ?_, ?_, ?_⟩
  · rintro c ms x ⟨ms0, ms1, g0, -, hp⟩
    rw [← hp.1]
    exact hk0.len _ _ _ g0
  · intro p hp hl
    refine (hk0.data p hp hl).bind fun d0 _ => ?_
    have := hk1.data p (by rw [← hN]; exact hp) (by rw [← hD]; exact hl)
    rw [← hN] at this
    refine this.bind fun d1 _ => ?_
    cases d0 <;> cases d1 <;> exact Nub.ok trivial
  · refine hk0.create.bind fun c0 h0 => hk1.create.bind fun c1 h1 => Nub.pure ?_
    exact ⟨[], [], h0, h1, rfl, rfl, fun n m0 m1 m e => by simp at e⟩
  · rintro ⟨c0, c1⟩ ms x n i ⟨ms0, ms1, g0, g1, hp⟩ hn hnD hi h0
    refine (hk0.select c0 ms0 x n i g0 (by rw [hp.1]; exact hn) hnD hi h0).bind ?_
    rintro ⟨m0, c0'⟩ ⟨l0, o0⟩
    refine (hk1.select c1 ms1 x n i g1 (by rw [hp.2.1]; exact hn) (by rw [← hD]; exact hnD)
      (by rw [← hN]; exact hi) h0).bind ?_
    rintro ⟨m1, c1'⟩ ⟨l1, o1⟩
    simp only at l0 l1 o0 o1
    rw [← hN] at l1
    refine Nub.pure ⟨?_, _, _, o0, o1, hp.snoc hn l0 l1⟩
    show (andMask m0 m1).length = I0.N
    rw [length_andMask (by omega), l0]
  · rintro ⟨c0, c1⟩ ms x n i ⟨ms0, ms1, g0, g1, hp⟩ hn hnD hi h0 hbit
    have key : ∀ (m0 m1 : Mask), 0 < n → ms0[n - 1]? = some m0 → ms1[n - 1]? = some m1 →
        m0.bit i = true ∧ m1.bit i = true := by
      intro m0 m1 hpos e0 e1
      have hn1 : n - 1 < ms.length := by omega
      obtain ⟨q0, q1, q2⟩ := hp.2.2 _ m0 m1 _ e0 e1 (List.getElem?_eq_getElem hn1)
      have := hbit _ hpos (List.getElem?_eq_getElem hn1)
      rw [q2, bit_andMask (by omega), Bool.and_eq_true] at this
      exact this
    refine (hk0.selectU c0 ms0 x n i g0 (by rw [hp.1]; exact hn) hnD hi h0 ?_).bind ?_
    · intro m hpos e
      have hn1 : n - 1 < ms1.length := by have := hp.2.1; omega
      exact (key m _ hpos e (List.getElem?_eq_getElem hn1)).1
    rintro ⟨m0, c0'⟩ ⟨l0, o0⟩
    refine (hk1.selectU c1 ms1 x n i g1 (by rw [hp.2.1]; exact hn) (by rw [← hD]; exact hnD)
      (by rw [← hN]; exact hi) h0 ?_).bind ?_
    · intro m hpos e
      have hn1 : n - 1 < ms0.length := by have := hp.1; omega
      exact (key _ m hpos (List.getElem?_eq_getElem hn1) e).2
    rintro ⟨m1, c1'⟩ ⟨l1, o1⟩
    simp only at l0 l1 o0 o1
    rw [← hN] at l1
    refine Nub.pure ⟨?_, _, _, o0, o1, hp.snoc hn l0 l1⟩
    show (andMask m0 m1).length = I0.N
    rw [length_andMask (by omega), l0]
  · rintro ⟨c0, c1⟩ ms i ⟨ms0, ms1, g0, g1, hp⟩ hl hi
    have hl' : ms.length = I0.D := hl
    have hDpos := hk0.cfg.depth
    have hdep : ∀ (d0 : Option δ0) (d1 : Option δ1),
        (h = true → ∀ (m : Mask), ms0[I0.D - 1]? = some m → m.bit i = true → d0.isSome = true) →
        (h = true → ∀ (m : Mask), ms1[I1.D - 1]? = some m → m.bit i = true → d1.isSome = true) →
        h = true → ∀ (m : Mask), ms[I0.D - 1]? = some m → m.bit i = true →
        d0.isSome = true ∧ d1.isSome = true := by
      intro d0 d1 q0 q1 e m hm hb
      have n0 : I0.D - 1 < ms0.length := by have := hp.1; omega
      have n1 : I0.D - 1 < ms1.length := by have := hp.2.1; omega
      obtain ⟨w0, w1, w2⟩ := hp.2.2 _ _ _ m (List.getElem?_eq_getElem n0)
        (List.getElem?_eq_getElem n1) hm
      rw [w2, bit_andMask (by omega), Bool.and_eq_true] at hb
      exact ⟨q0 e _ (List.getElem?_eq_getElem n0) hb.1,
        q1 e _ (by rw [← hD]; exact List.getElem?_eq_getElem n1) hb.2⟩
    refine (hk0.curData c0 ms0 i g0 (by rw [hp.1]; exact hl) hi).bind fun d0 q0 => ?_
    refine (hk1.curData c1 ms1 i g1 (by rw [hp.2.1, ← hD]; exact hl) (by rw [← hN]; exact hi)).bind
      fun d1 q1 => ?_
    have := hdep d0 d1 q0 q1
    cases d0 with
    | none => exact Nub.ok fun e m hm hb => by have := (this e m hm hb).1; cases this
    | some x0 =>
      cases d1 with
      | none => exact Nub.ok fun e m hm hb => by have := (this e m hm hb).2; cases this
      | some x1 => exact Nub.ok fun _ _ _ _ => rfl
  · rintro e ⟨c0, c1⟩ ms x i ⟨ms0, ms1, g0, g1, hp⟩ hl hi hbit
    have hl' : ms.length = I0.D := hl
    have hDpos := hk0.cfg.depth
    have n0 : I0.D - 1 < ms0.length := by have := hp.1; omega
    have n1 : I0.D - 1 < ms1.length := by have := hp.2.1; omega
    have n2 : I0.D - 1 < ms.length := by omega
    obtain ⟨w0, w1, w2⟩ := hp.2.2 _ _ _ _ (List.getElem?_eq_getElem n0)
      (List.getElem?_eq_getElem n1) (List.getElem?_eq_getElem n2)
    have hb := hbit _ (List.getElem?_eq_getElem n2)
    rw [w2, bit_andMask (by omega), Bool.and_eq_true] at hb
    refine (hk0.curDataU e c0 ms0 x i g0 (by rw [hp.1]; exact hl) hi ?_).bind fun d0 _ => ?_
    · intro m hm
      rw [List.getElem?_eq_getElem n0] at hm
      cases hm
      exact hb.1
    refine (hk1.curDataU e c1 ms1 x i g1 (by rw [hp.2.1, ← hD]; exact hl)
      (by rw [← hN]; exact hi) ?_).bind fun d1 _ => Nub.pure trivial
    intro m hm
    rw [← hD, List.getElem?_eq_getElem n1] at hm
    cases hm
    exact hb.2

/-- `union`: its unchecked data access needs checked access that has data at announced bits. -/
theorem union_sturdy {u h : Bool} (hN : I0.N = I1.N) (hD : I0.D = I1.D) (ha : Sturdy tm u h I0 a)
    (hb : Sturdy tm u h I1 b) : Sturdy tm h h (unionImpl I0 I1) (a, b) := by
  obtain ⟨k0, hk0⟩ := ha
  obtain ⟨k1, hk1⟩ := hb
  have hDpos := hk0.cfg.depth
  have hsel : ∀ (c : C0 × C1) (ms : List Mask) (n i : Nat),
      (∃ ms0 ms1, k0 c.1 ms0 true ∧ k1 c.2 ms1 true ∧ PairMasks orMask I0.N ms0 ms1 ms) →
      n ≤ ms.length → n < I0.D → i < width I0.N → (n = 0 → i = 0) →
      Nub tm ((unionImpl I0 I1).select c (a, b) n i) (fun r => r.1.length = I0.N ∧
        ∃ ms0 ms1, k0 r.2.1 ms0 true ∧ k1 r.2.2 ms1 true ∧
          PairMasks orMask I0.N ms0 ms1 (ms.take n ++ [r.1])) := by
    rintro ⟨c0, c1⟩ ms n i ⟨ms0, ms1, g0, g1, hp⟩ hn hnD hi h0
    refine (hk0.select c0 ms0 true n i g0 (by rw [hp.1]; exact hn) hnD hi h0).bind ?_
    rintro ⟨m0, c0'⟩ ⟨l0, o0⟩
    refine (hk1.select c1 ms1 true n i g1 (by rw [hp.2.1]; exact hn) (by rw [← hD]; exact hnD)
      (by rw [← hN]; exact hi) h0).bind ?_
    rintro ⟨m1, c1'⟩ ⟨l1, o1⟩
    simp only at l0 l1 o0 o1
    rw [← hN] at l1
    refine Nub.pure ⟨?_, _, _, o0, o1, hp.snoc hn l0 l1⟩
    show (orMask m0 m1).length = I0.N
    rw [length_orMask (by omega), l0]
  have hdat : ∀ (c : C0 × C1) (ms : List Mask) (i : Nat),
      (∃ ms0 ms1, k0 c.1 ms0 true ∧ k1 c.2 ms1 true ∧ PairMasks orMask I0.N ms0 ms1 ms) →
      ms.length = I0.D → i < width I0.N →
      Nub tm ((unionImpl I0 I1).curData c (a, b) i) (fun d => h = true → ∀ (m : Mask),
        ms[I0.D - 1]? = some m → m.bit i = true → d.isSome = true) := by
    rintro ⟨c0, c1⟩ ms i ⟨ms0, ms1, g0, g1, hp⟩ hl hi
    have n0 : I0.D - 1 < ms0.length := by have := hp.1; omega
    have n1 : I0.D - 1 < ms1.length := by have := hp.2.1; omega
    refine (hk0.curData c0 ms0 i g0 (by rw [hp.1]; exact hl) hi).bind fun d0 q0 => ?_
    refine (hk1.curData c1 ms1 i g1 (by rw [hp.2.1, ← hD]; exact hl) (by rw [← hN]; exact hi)).bind
      fun d1 q1 => ?_
    have key : h = true → ∀ (m : Mask), ms[I0.D - 1]? = some m → m.bit i = true →
        d0.isSome = true ∨ d1.isSome = true := by
      intro e m hm hb
      obtain ⟨w0, w1, w2⟩ := hp.2.2 _ _ _ m (List.getElem?_eq_getElem n0)
        (List.getElem?_eq_getElem n1) hm
      rw [w2, bit_orMask (by omega), Bool.or_eq_true] at hb
      rcases hb with hb | hb
      · exact Or.inl (q0 e _ (List.getElem?_eq_getElem n0) hb)
      · exact Or.inr (q1 e _ (by rw [← hD]; exact List.getElem?_eq_getElem n1) hb)
    cases d0 with
    | some x0 => exact Nub.ok fun _ _ _ _ => rfl
    | none =>
      cases d1 with
      | some x1 => exact Nub.ok fun _ _ _ _ => rfl
      | none =>
        refine Nub.ok fun e m hm hb => ?_
        rcases key e m hm hb with hb | hb <;> cases hb
  refine ⟨fun c ms _ => ∃ ms0 ms1, k0 c.1 ms0 true ∧ k1 c.2 ms1 true ∧
    PairMasks orMask I0.N ms0 ms1 ms, hk0.cfg, ?_, ?_, ?_, ?_, ?_, ?_, ?_⟩
  · rintro c ms x ⟨ms0, ms1, g0, -, hp⟩
    rw [← hp.1]
    exact hk0.len _ _ _ g0
  · intro p hp hl
    refine (hk0.data p hp hl).bind fun d0 _ => ?_
    have := hk1.data p (by rw [← hN]; exact hp) (by rw [← hD]; exact hl)
    rw [← hN] at this
    refine this.bind fun d1 _ => ?_
    cases d0 <;> cases d1 <;> exact Nub.ok trivial
  · refine hk0.create.bind fun c0 h0 => hk1.create.bind fun c1 h1 => Nub.pure ?_
    exact ⟨[], [], h0, h1, rfl, rfl, fun n m0 m1 m e => by simp at e⟩
  · intro c ms x n i hc hn hnD hi h0
    exact hsel c ms n i hc hn hnD hi h0
  · intro c ms x n i hc hn hnD hi h0 _
    exact hsel c ms n i hc hn hnD hi h0
  · intro c ms i hc hl hi
    exact hdat c ms i hc hl hi
  · intro e c ms x i hc hl hi hbit
    refine (hdat c ms i hc hl hi).bind fun d hd => ?_
    have hl' : ms.length = I0.D := hl
    have n2 : I0.D - 1 < ms.length := by omega
    have := hd e _ (List.getElem?_eq_getElem n2) (hbit _ (List.getElem?_eq_getElem n2))
    obtain ⟨y, rfl⟩ := Option.isSome_iff_exists.1 this
    exact Nub.unwrapU ⟨y, rfl, trivial⟩

end

end Hibit
