import Verif.Sparse.Refine
/-!
# SparseTree: `remove`
-/
namespace Hibit.Sparse
open Hibit

section
variable {α : Type} {N D : Nat} {cap : Nat → Nat} {dflt : Option α} {Ph : List Nat} {t : ST α}
  {M : Nat → Option α} {B : List Nat → Nat}

/-- Exactness (as in `SS`) except at `p`. -/
def ExactBut (N D : Nat) (Ph : List Nat) (B : List Nat → Nat) (p : List Nat) : Prop :=
  ∀ q, q ≠ [] → q.length < D → B q ≠ 0 → q = p ∨ (∃ i, B (q ++ [i]) ≠ 0) ∨ OnPath N D Ph q

theorem LvRep.prefix_live {lv : List Level} {hole : Option (List Nat)} {B : List Nat → Nat}
    (H : LvRep N D cap lv B hole) {P : List Nat} : ∀ m n, n + m ≤ P.length → 1 ≤ n →
    B (P.take (n + m)) ≠ 0 → B (P.take n) ≠ 0 := by
  intro m
  induction m with
  | zero => intro n _ _ h; exact h
  | succ m ih =>
    intro n hl h1 h
    have h2 := ih (n + 1) (by omega) (by omega) (by rw [show n + 1 + m = n + (m + 1) by omega]; exact h)
    have hget : P[n]? = some P[n] := List.getElem?_eq_getElem (by omega)
    rw [take_succ_of_getElem? hget] at h2
    rcases H.parent_live h2 with h3 | h3
    · have : (P.take n).length = 0 := by rw [h3]; rfl
      rw [List.length_take] at this; omega
    · exact h3

/-- The bottom-up loop: clears the hole, frees blocks that became empty. -/
theorem removeLoop_spec (hN : 0 < N) (hcap : CapOk D cap) {P : List Nat}
    (hP : ValidPath (width N) P) (hPl : P.length = D) {lbi : List Nat}
    (hlbi : ∀ n, n < D → lbi[n]? = some (B (P.take (n + 1)))) :
    ∀ (n : Nat) (lv : List Level) (B1 : List Nat → Nat), n + 1 ≤ D →
    LvRep N D cap lv B1 (some (P.take (n + 1))) → B1 (P.take (n + 1)) = 0 →
    (∀ q, B1 q ≠ 0 → B1 q = B q) → (n = 0 ∨ B1 (P.take n) ≠ 0) → ExactBut N D Ph B1 (P.take n) →
    ∃ lv' B2, removeLoop P lbi (n + 1) lv = .ok lv' ∧ LvRep N D cap lv' B2 none ∧
      (∀ q, q ≠ [] → q.length < D → B2 q ≠ 0 → (∃ i, B2 (q ++ [i]) ≠ 0) ∨ OnPath N D Ph q) ∧
      (∀ q, B2 q ≠ 0 → B2 q = B q) ∧
      ∀ q, (∀ m, 1 ≤ m → m ≤ n → q ≠ P.take m) → B2 q = B1 q := by
  intro n
  induction n with
  | zero =>
    intro lv B1 hn H h0 hsub hlive hex
    have hget : P[0]? = some P[0] := List.getElem?_eq_getElem (by omega)
    have htk := take_succ_of_getElem? hget
    rw [htk] at H h0
    simp only [List.take_zero, List.nil_append] at H h0
    obtain ⟨L, hL, hk⟩ := H.get (n := 0) (by omega)
    obtain ⟨b, hb, hbI⟩ := H.block (p := []) ValidPath.nil hL
    obtain ⟨b', e1, hb'⟩ := hbI.remove (i := P[0]) (hP _ (List.getElem_mem _))
    have hclean : BlockIs N b' (fun j => B1 ([] ++ [j])) (fun _ => False) := by
      refine hb'.congr (fun j _ e => e.2 ?_) fun j _ _ => ?_
      · have := e.1; simpa using this.symm
      · by_cases e : j = P[0]
        · rw [if_pos e, e]; exact h0.symm
        · rw [if_neg e]
    have H2 := LvRep.clear (p := []) (i := P[0]) (by simpa using H) ValidPath.nil (.inl rfl) hL hclean
    have hroot := H.root
    rw [hroot] at hb H2
    refine ⟨_, B1, ?_, H2, ?_, hsub, fun _ _ => rfl⟩
    · simp only [removeLoop, getP_some hL, bind_ok, if_true, pure_eq_ok, getU_some hb,
        getP_some hget, e1, setU_ok _ (List.getElem?_eq_some_iff.1 hb).1, ne_eq, not_true,
        if_false]
      split <;> rfl
    · intro q hq hql hlv
      rcases hex q hq hql hlv with h | h
      · exact absurd h hq
      · exact h
  | succ n ih =>
    intro lv B1 hn H h0 hsub hlive hex
    have hget : P[n + 1]? = some P[n + 1] := List.getElem?_eq_getElem (by omega)
    have hi : P[n + 1] < width N := hP _ (List.getElem_mem _)
    have htk := take_succ_of_getElem? hget
    have hpv : ValidPath (width N) (P.take (n + 1)) := hP.take _
    have hpl : (P.take (n + 1)).length = n + 1 := by simp; omega
    have hplive : B1 (P.take (n + 1)) ≠ 0 := by
      rcases hlive with h | h
      · omega
      · exact h
    have hbi : lbi[n]? = some (B1 (P.take (n + 1))) := by
      rw [hlbi n (by omega), hsub _ hplive]
    generalize P[n + 1] = i at *
    rw [htk] at H h0
    have hprev : n = 0 ∨ B1 (P.take n) ≠ 0 := by
      by_cases hn0 : n = 0
      · exact .inl hn0
      · exact .inr (H.prefix_live (P := P) 1 n (by omega) (by omega) hplive)
    have hpne : P.take (n + 1) ≠ [] := by
      intro e; rw [e] at hpl; simp at hpl
    have htkn : ∀ m, m ≤ n → P.take m ≠ P.take (n + 1) := by
      intro m hm e
      have : (P.take m).length = (P.take (n + 1)).length := by rw [e]
      simp at this; omega
    generalize hpe : P.take (n + 1) = p at *
    obtain ⟨L, hL, hk⟩ := H.get (n := p.length) (by omega)
    obtain ⟨b, hb, hbI⟩ := H.block hpv hL
    have hlt := (List.getElem?_eq_some_iff.1 hb).1
    obtain ⟨b', e1, hb'⟩ := hbI.remove hi
    have hclean : BlockIs N b' (fun j => B1 (p ++ [j])) (fun _ => False) := by
      refine hb'.congr (fun j _ e => e.2 ?_) fun j _ _ => ?_
      · have := e.1
        simp only [Option.some.injEq, append_singleton_inj, true_and] at this
        exact this.symm
      · by_cases e : j = i
        · subst e; simp [h0]
        · rw [if_neg e]
    have H2 := H.clear hpv (.inr hplive) hL hclean
    rw [hpl] at hL H2
    by_cases hem : b'.isEmpty = true
    · have hall : ∀ j, B1 (p ++ [j]) = 0 := by
        intro j
        by_cases hj : j < width N
        · exact hclean.isEmpty.1 hem j hj
        · apply Classical.byContradiction
          intro h
          exact hj ((H.valid _ h).1 j (by simp))
      have hL2 : (lv.set (n + 1) { L with blocks := L.blocks.set (B1 p) b' })[p.length]? =
          some { L with blocks := L.blocks.set (B1 p) b' } := by
        rw [hpl]
        exact List.getElem?_set_self (List.getElem?_eq_some_iff.1 hL).1
      obtain ⟨L', e2, H3⟩ := H2.free hN hpne hplive hall hL2
        (by rw [hpl]; exact hcap.lt64 (by omega) (by omega))
      rw [hpl, List.set_set] at H3
      have hsub3 : ∀ q, upd B1 p 0 q ≠ 0 → q ≠ p ∧ upd B1 p 0 q = B1 q := by
        intro q hq
        by_cases e : q = p
        · rw [e, upd_same] at hq; exact absurd rfl hq
        · exact ⟨e, upd_ne _ e⟩
      obtain ⟨lv', B2, e3, H4, hex4, hsub4, hsame4⟩ := ih (lv.set (n + 1) L') (upd B1 p 0)
        (by omega) H3 (upd_same _ _ _)
        (fun q hq => by
          obtain ⟨_, h⟩ := hsub3 q hq
          rw [h] at hq ⊢; exact hsub q hq)
        (by
          rcases hprev with h | h
          · exact .inl h
          · exact .inr (by rw [upd_ne _ (htkn n (Nat.le_refl _))]; exact h))
        (by
          intro q hq hql hlv
          obtain ⟨hne, h⟩ := hsub3 q hlv
          rw [h] at hlv
          rcases hex q hq hql hlv with h' | ⟨j, hj⟩ | hph
          case inr.inr => exact .inr (.inr hph)
          · exact absurd h' hne
          · by_cases e : q ++ [j] = p
            · left
              have hget' : P[n]? = some P[n] := List.getElem?_eq_getElem (by omega)
              have := take_succ_of_getElem? hget'
              exact (append_singleton_inj.1 ((e.trans hpe.symm).trans this)).1
            · exact .inr (.inl ⟨j, by rw [upd_ne _ e]; exact hj⟩))
      refine ⟨lv', B2, ?_, H4, hex4, hsub4, ?_⟩
      · rw [removeLoop]
        simp only [getP_some hL, bind_ok, Nat.add_sub_cancel, getP_some hbi,
          getU_some hb, getP_some hget, e1, setU_ok _ hlt, hem, if_true, ne_eq,
          Nat.add_one_ne_zero, not_false_eq_true, e2, e3, if_false]
      · intro q hq
        rw [hsame4 q (fun m h1 h2 => hq m h1 (by omega)), upd_ne]
        have := hq (n + 1) (by omega) (Nat.le_refl _)
        rw [hpe] at this; exact this
    · refine ⟨_, B1, ?_, H2, ?_, hsub, fun _ _ => rfl⟩
      · rw [removeLoop]
        simp only [getP_some hL, bind_ok, Nat.add_sub_cancel, getP_some hbi,
          getU_some hb, getP_some hget, e1, setU_ok _ hlt, hem, Bool.false_eq_true, if_false,
          Nat.add_one_ne_zero, pure_eq_ok]
      · intro q hq hql hlv
        rcases hex q hq hql hlv with h | h
        · subst h
          refine .inl (Classical.byContradiction fun hno => ?_)
          apply hem
          rw [hclean.isEmpty]
          intro j _
          apply Classical.byContradiction
          intro h; exact hno ⟨j, h⟩
        · exact h

/-! ## Swap-removal -/

theorem swapRemove_spec {β : Type} {l : List β} {d n : Nat} {v : β} (hl : l.length = n + 1)
    (hv : l[d]? = some v) : ∃ l', swapRemove l d = .ok (v, l') ∧ l'.length = n ∧
      ∀ j, j < n → l'[j]? = if j = d then l[n]? else l[j]? := by
  have hd := (List.getElem?_eq_some_iff.1 hv).1
  obtain ⟨x, hx⟩ : ∃ x, l[n]? = some x := ⟨_, List.getElem?_eq_getElem (by omega)⟩
  have hlast : l.getLast? = some x := by
    rw [List.getLast?_eq_getElem?, hl]; simpa using hx
  refine ⟨(l.set d x).dropLast, ?_, by simp [hl], fun j hj => ?_⟩
  · unfold swapRemove
    simp only [getP_some hv, bind_ok, hlast, unwrapU, pure_eq_ok]
  · rw [List.dropLast_eq_take, List.getElem?_take]
    simp only [List.length_set, hl, Nat.add_sub_cancel, if_pos hj]
    rw [getElem?_set_if hd, hx]

theorem dropLast_get {β : Type} {l : List β} {n : Nat} (hl : l.length = n + 1) :
    l.dropLast.length = n ∧ ∀ j, j < n → l.dropLast[j]? = l[j]? := by
  refine ⟨by simp [hl], fun j hj => ?_⟩
  rw [List.dropLast_eq_take, List.getElem?_take, if_pos (by omega)]

/-- The vectors after moving the last entry to position `d`. -/
theorem ValRep.swap (V : ValRep N D cap dflt t B)
    (hv : ∀ p, B p ≠ 0 → ValidPath (width N) p)
    {P : List Nat} (hP : P.length = D) (hd : B P ≠ 0) {n : Nat}
    (hn : t.values.length = n + 1) {lv' : List Level}
    {values' : List (Option α)} {keys' : List Nat} {last' : List (Nat × Nat)}
    (h1 : values'.length = n ∧ ∀ j, j < n → values'[j]? = if j = B P then t.values[n]? else t.values[j]?)
    (h2 : keys'.length = n ∧ ∀ j, j < n → keys'[j]? = if j = B P then t.keys[n]? else t.keys[j]?)
    (h3 : last'.length = n ∧ ∀ j, j < n → last'[j]? = if j = B P then t.last[n]? else t.last[j]?)
    {B3 : List Nat → Nat}
    (hB3 : ∀ Q, Q.length = D → B3 Q = if Q = P then 0 else if B Q = n then B P else B Q)
    (hpar : ∀ p i, p.length + 1 = D → B3 (p ++ [i]) ≠ 0 → B3 p = B p) :
    ValRep N D cap dflt ⟨lv', values', keys', last'⟩ B3 ∧
      ∀ Q, Q.length = D → B3 Q ≠ 0 → values'[B3 Q]? = t.values[B Q]? := by
  have hdlt := V.lt hP hd
  -- where the entries of `Q` went
  have hgo : ∀ Q, Q.length = D → B3 Q ≠ 0 → Q ≠ P ∧ B Q ≠ 0 ∧ B3 Q < n ∧
      ((B3 Q = B P ∧ B Q = n) ∨ (B3 Q ≠ B P ∧ B3 Q = B Q)) := by
    intro Q hQ h
    rw [hB3 Q hQ] at h ⊢
    by_cases e : Q = P
    · rw [if_pos e] at h; exact absurd rfl h
    · rw [if_neg e] at h ⊢
      by_cases e2 : B Q = n
      · rw [if_pos e2] at h ⊢
        have hQ0 : B Q ≠ 0 := by omega
        refine ⟨e, hQ0, ?_, .inl ⟨rfl, e2⟩⟩
        have : B P ≠ n := by
          intro e3
          exact e (V.inj hv hQ hP hQ0 (by omega))
        omega
      · rw [if_neg e2] at h ⊢
        have := V.lt hQ h
        refine ⟨e, h, by omega, .inr ⟨?_, rfl⟩⟩
        intro e3
        exact e (V.inj hv hQ hP h e3)
  have hnpos : 1 ≤ n := by omega
  have hget : ∀ {β : Type} {l l' : List β}, (∀ j, j < n → l'[j]? = if j = B P then l[n]? else l[j]?) →
      ∀ Q, Q.length = D → B3 Q ≠ 0 → l'[B3 Q]? = l[B Q]? := by
    intro β l l' h Q hQ hne
    obtain ⟨g1, g2, g3, g4⟩ := hgo Q hQ hne
    rw [h _ g3]
    rcases g4 with ⟨a, b⟩ | ⟨a, b⟩
    · rw [if_pos a, b]
    · rw [if_neg a, b]
  refine ⟨⟨by rw [h2.1, h1.1], by rw [h3.1, h1.1], ?_, ?_, ?_, ?_, ?_, ?_⟩, hget h1.2⟩
  · have := V.bound
    simp only; omega
  · simp only
    rw [h1.2 0 (by omega), if_neg (fun e => hd e.symm)]; exact V.zero
  · intro Q hQ hne
    simp only
    rw [hget h2.2 Q hQ hne]
    exact V.keyOf Q hQ (hgo Q hQ hne).2.1
  · intro p i hp hne
    simp only
    have hQ : (p ++ [i]).length = D := by simpa using hp
    rw [hget h3.2 _ hQ hne, hpar p i hp hne]
    exact V.lastOf p i hp (hgo _ hQ hne).2.1
  · intro d' g1 g2
    simp only at g2
    by_cases e : d' = B P
    · obtain ⟨Q, hQ, hQd⟩ := V.surj n (by omega) (by omega)
      refine ⟨Q, hQ, ?_⟩
      rw [hB3 Q hQ, if_neg, if_pos hQd, e]
      rintro rfl; omega
    · obtain ⟨Q, hQ, hQd⟩ := V.surj d' g1 (by omega)
      refine ⟨Q, hQ, ?_⟩
      rw [hB3 Q hQ, if_neg, if_neg (by omega), hQd]
      rintro rfl; omega
  · intro d' g1 g2
    simp only at g2 ⊢
    rw [h1.2 d' (by omega)]
    by_cases e : d' = B P
    · rw [if_pos e]; exact V.init n (by omega) (by omega)
    · rw [if_neg e]; exact V.init d' g1 (by omega)

/-! ## remove -/

theorem SS.remove_spec (hc : Cfg N D) (hcap : CapOk D cap) (S : SS N D cap dflt Ph t M B) {k : Nat}
    (hk : k < keyRange N D) :
    ∃ t' B', remove N D t k = .ok (t', M k) ∧ SS N D cap dflt Ph t' (put M k none) B' := by
  have hkr := hk
  replace hk := Nat.lt_of_lt_of_le hk (keyRange_le N D)
  have hPv := validPath_path hk
  have hPl := path_length (width N) D k
  have hup := unpath_path (width N) D k hk
  have hlev : levelIndices N D k = .ok (path (width N) D k) := levelIndices_eq hc.valid k
  have hpos := hc.pos
  have hent := S.entry hk
  have hpinj : ∀ k', k' < width N ^ D → path (width N) D k' = path (width N) D k → k' = k :=
    fun k' hk' e => path_injOn hk' hk e
  have hfetch := S.fetch hPv hPl
  have hvalid : ∀ q, B q ≠ 0 → ValidPath (width N) q := fun q h => (S.lv.valid q h).1
  generalize hPe : path (width N) D k = P at *
  rcases hent with ⟨hM, hz⟩ | ⟨v, hM, hnz, hval⟩
  · refine ⟨t, B, ?_, ?_⟩
    · unfold remove
      rw [indexFrom_eq, if_pos hkr]
      simp only [bind_ok, hlev, hfetch, hz, if_true, pure_eq_ok, hM]
    · have : put M k none = M := by
        funext x
        unfold put
        split
        · next e => rw [e, hM]
        · rfl
      rw [this]; exact S
  · have V := S.data
    have hdlt := V.lt hPl hnz
    obtain ⟨n, hn⟩ : ∃ n, t.values.length = n + 1 := ⟨t.values.length - 1, by omega⟩
    -- the loop
    have H1 := S.lv.dropValue hPl hpos
    have htkD : P.take (D - 1 + 1) = P := List.take_of_length_le (by omega)
    have hPne : ∀ m, m < D → P.take m ≠ P := by
      intro m hm e
      have : (P.take m).length = P.length := by rw [e]
      simp at this; omega
    obtain ⟨lv', B2, e1, H2, hex2, hsub2, hsame2⟩ := removeLoop_spec (B := B) hc.nz hcap hPv hPl
      (lbi := (List.range D).map (fun m => B (P.take (m + 1))))
      (by intro m hm; simp [hm]) (D - 1) t.levels (upd B P 0)
      (by omega) (by rw [htkD]; exact H1) (by rw [htkD]; exact upd_same _ _ _)
      (fun q hq => by
        by_cases e : q = P
        · rw [e, upd_same] at hq; exact absurd rfl hq
        · exact upd_ne _ e)
      (by
        by_cases h : D - 1 = 0
        · exact .inl h
        · right
          rw [upd_ne _ (hPne _ (by omega))]
          refine S.lv.prefix_live (P := P) 1 (D - 1) (by omega) (by omega) ?_
          rw [htkD]; exact hnz)
      (by
        intro q hq hql hlv
        have hqP : q ≠ P := by rintro rfl; omega
        rw [upd_ne _ hqP] at hlv
        rcases S.exact q hq hql hlv with ⟨i, hi⟩ | hph
        case inr => exact .inr (.inr hph)
        by_cases e : q ++ [i] = P
        · left
          have hget : P[D - 1]? = some P[D - 1] := List.getElem?_eq_getElem (by omega)
          have := take_succ_of_getElem? hget
          exact (append_singleton_inj.1 ((e.trans htkD.symm).trans this)).1
        · exact .inr (.inl ⟨i, by rw [upd_ne _ e]; exact hi⟩))
    rw [show D - 1 + 1 = D by omega] at e1
    have hB2 : ∀ Q, Q.length = D → B2 Q = if Q = P then 0 else B Q := by
      intro Q hQ
      rw [hsame2 Q]
      · rfl
      · rintro m h1 h2 rfl
        simp at hQ; omega
    have hlk : t.keys.length = n + 1 := by rw [V.lenK]; exact hn
    have hll : t.last.length = n + 1 := by rw [V.lenL]; exact hn
    have hkey := V.keyOf P hPl hnz
    obtain ⟨keys', ek, hk1⟩ := swapRemove_spec hlk hkey
    obtain ⟨values', ev, hv1⟩ := swapRemove_spec hn hval
    obtain ⟨hdl1, hdl2⟩ := dropLast_get hll
    obtain ⟨x, hx⟩ : ∃ x, t.last[n]? = some x := ⟨_, List.getElem?_eq_getElem (by omega)⟩
    have hlast : t.last.getLast? = some x := by
      rw [List.getLast?_eq_getElem?, hll]; simpa using hx
    -- the new map
    have hfin : ∀ (lv3 : List Level) (last' : List (Nat × Nat)) (B3 : List Nat → Nat),
        moveLast D { t with levels := lv' } (B P) =
          .ok { t with levels := lv3, last := last' } →
        (last'.length = n ∧ ∀ j, j < n → last'[j]? = if j = B P then t.last[n]? else t.last[j]?) →
        LvRep N D cap lv3 B3 none →
        (∀ q, q ≠ [] → q.length < D → B3 q ≠ 0 → (∃ i, B3 (q ++ [i]) ≠ 0) ∨ OnPath N D Ph q) →
        (∀ Q, Q.length = D → B3 Q = if Q = P then 0 else if B Q = n then B P else B Q) →
        (∀ p, p.length < D → B3 p = B2 p) →
        ∃ t' B', remove N D t k = .ok (t', M k) ∧ SS N D cap dflt Ph t' (put M k none) B' := by
      intro lv3 last' B3 hmv hl3 H3 hex3 hB3 hlow
      have hpar : ∀ p i, p.length + 1 = D → B3 (p ++ [i]) ≠ 0 → B3 p = B p := by
        intro p i hp h
        rcases H3.parent_live h with e | e
        · rw [e, H3.root, S.lv.root]
        · rw [hlow p (by omega)] at e ⊢
          exact hsub2 p e
      obtain ⟨V3, hvals⟩ := V.swap hvalid hPl hnz hn (lv' := lv3) hv1 hk1 hl3 hB3 hpar
      refine ⟨⟨lv3, values', keys', last'⟩, B3, ?_, H3, hex3, V3, ?_⟩
      · unfold remove
        rw [indexFrom_eq, if_pos hkr]
        simp only [bind_ok, hlev, hfetch, if_neg hnz, e1, hmv, ek, ev, unwrapU, pure_eq_ok, hM]
      · intro k'
        unfold put
        by_cases e : k' = k
        · subst e
          rw [if_pos rfl, if_pos hk, hPe, hB3 P hPl, if_pos rfl, if_pos rfl]
        · rw [if_neg e, S.den k']
          by_cases hk' : k' < width N ^ D
          · rw [if_pos hk', if_pos hk']
            have hQ := path_length (width N) D k'
            have hne : path (width N) D k' ≠ P := fun h => e (hpinj k' hk' h)
            generalize path (width N) D k' = Q at hQ hne ⊢
            have hiff : B3 Q = 0 ↔ B Q = 0 := by
              rw [hB3 Q hQ, if_neg hne]
              by_cases e2 : B Q = n
              · rw [if_pos e2]
                constructor
                · intro h; exact absurd h hnz
                · intro h; omega
              · rw [if_neg e2]
            by_cases hz : B Q = 0
            · rw [if_pos hz, if_pos (hiff.2 hz)]
            · rw [if_neg hz, if_neg (fun h => hz (hiff.1 h)), hvals Q hQ (fun h => hz (hiff.1 h))]
          · rw [if_neg hk', if_neg hk']
    by_cases hdn : B P = n
    · -- the removed value is the last one
      refine hfin lv' t.last.dropLast B2 ?_ ⟨hdl1, fun j hj => ?_⟩ H2 hex2 ?_ (fun _ _ => rfl)
      · unfold moveLast
        simp only [hlast, unwrapU, bind_ok, hdl1, hdn, gt_iff_lt, Nat.lt_irrefl, if_false, pure_eq_ok]
      · rw [if_neg (by omega)]; exact hdl2 j hj
      · intro Q hQ
        rw [hB2 Q hQ]
        by_cases e : Q = P
        · rw [if_pos e, if_pos e]
        · rw [if_neg e, if_neg e]
          by_cases e2 : B Q = n
          · rw [if_pos e2, hdn, e2]
          · rw [if_neg e2]
    · -- the last value moves to the freed position
      obtain ⟨Q, hQ, hQn⟩ := V.surj n (by omega) (by omega)
      have hQP : Q ≠ P := by rintro rfl; exact hdn hQn
      have hQ0 : B Q ≠ 0 := by omega
      have hQv := hvalid Q hQ0
      rcases eq_nil_or_append Q with rfl | ⟨p, i, rfl⟩
      · simp at hQ; omega
      obtain ⟨hpv, hi⟩ := ValidPath.of_append hQv
      have hpl : p.length + 1 = D := by simpa using hQ
      have hD1 : D - 1 = p.length := by omega
      have hB2Q : B2 (p ++ [i]) = B (p ++ [i]) := by rw [hB2 _ hQ, if_neg hQP]
      have hlo := V.lastOf p i hpl hQ0
      rw [hQn, hx] at hlo
      simp only [Option.some.injEq] at hlo
      have hplive : p = [] ∨ B2 p ≠ 0 := H2.parent_live (by rw [hB2Q]; exact hQ0)
      have hB2p : B2 p = B p := by
        rcases hplive with e | e
        · rw [e, H2.root, S.lv.root]
        · exact hsub2 p e
      obtain ⟨L, hL, hkl⟩ := H2.get (n := p.length) (by omega)
      obtain ⟨b, hb, hbI⟩ := H2.block hpv hL
      have hbI' : BlockIs N b (fun j => B2 (p ++ [j])) (fun _ => False) :=
        hbI.congr (fun _ _ e => by cases e) fun _ _ _ => rfl
      have hfit : B P < 2 ^ idxBits p.length := by
        have h1 := hcap.fits p.length (by omega)
        rw [hpl] at h1
        have := V.bound
        omega
      obtain ⟨b', e2, hb'⟩ := hbI'.set hi (fun e => e) (by rw [hB2Q]; exact hQ0) hnz hfit
      have H3 := H2.setValue hpv hi hpl hnz hplive hL hb'
      rw [hB2p] at hb
      have hdn' : B P < n := by omega
      refine hfin _ (t.last.dropLast.set (B P) x) _ ?_ ⟨by simp [hll], fun j hj => ?_⟩ H3 ?_ ?_ ?_
      · unfold moveLast
        simp only [hlast, unwrapU, bind_ok, hdl1, gt_iff_lt, hdn', if_true,
          setU_ok _ (show B P < t.last.dropLast.length by omega), hD1, getP_some hL, hlo,
          getU_some hb, e2, setU_ok _ (List.getElem?_eq_some_iff.1 hb).1, pure_eq_ok, hB2p]
      · rw [getElem?_set_if (by omega), hx, hdl2 j hj]
      · intro q hq hql hlv
        have hqne : q ≠ p ++ [i] := by rintro rfl; omega
        rw [upd_ne _ hqne] at hlv
        rcases hex2 q hq hql hlv with ⟨j, hj⟩ | hph
        case inr => exact .inr hph
        refine .inl ⟨j, ?_⟩
        by_cases e : q ++ [j] = p ++ [i]
        · rw [e, upd_same]; exact hnz
        · rw [upd_ne _ e]; exact hj
      · intro Q' hQ'
        by_cases e : Q' = p ++ [i]
        · subst e
          rw [upd_same, if_neg hQP, if_pos hQn]
        · rw [upd_ne _ e, hB2 Q' hQ']
          by_cases e3 : Q' = P
          · rw [if_pos e3, if_pos e3]
          · rw [if_neg e3, if_neg e3]
            by_cases e4 : B Q' = n
            · exact absurd (V.inj hvalid hQ' hQ (by omega) (by omega)) e
            · rw [if_neg e4]
      · intro q hq
        rw [upd_ne]
        rintro rfl; omega

end

end Hibit.Sparse
