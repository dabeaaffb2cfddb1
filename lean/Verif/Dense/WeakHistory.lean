import Verif.Dense.WeakTree
/-!
# DenseTree with damaged branch nodes: removal, iteration, drop, histories
-/
namespace Hibit.Dense.Weak
open Hibit Hibit.Dense

variable {α : Type} {D : Nat} {h : Heap} {root : Ptr} {loc K : List Nat → Option Nat}

/-- dense_tree.rs:241-264. -/
theorem removeCell_spec {t : DT α} (T : TInv D t.heap t.root loc K)
    {p : List Nat} {i a d : Nat}
    (hP : ValidPath 64 (p ++ [i])) (hp : p.length + 1 = D) (ha : loc p = some a)
    (hK : K (p ++ [i]) = some d) {branch : List Ptr}
    {j x : Nat} (hji : j ≠ i) (hj : K (p ++ [j]) = some x) :
    ∃ h', removeCell D t (p ++ [i]) branch (.heap a) i = .ok h' ∧
      TInv D h' t.root loc (upd K (p ++ [i]) none) := by
  obtain ⟨hpv, hi⟩ := ValidPath.of_append hP
  have hkind : kindOf D p = .term := by unfold kindOf; rw [if_neg (by omega)]
  obtain ⟨h1, e1, H1⟩ := T.rep.remove ha hi (v := .idx d) (by rw [cellsOf_term hp, hK]; rfl)
  rw [hkind] at e1
  have hcoh : ∀ s a, loc s = some a → ∀ k, k < 64 →
      upd (cellsOf D loc K) p (upd (cellsOf D loc K p) i none) s k =
        cellsOf D loc (upd K (p ++ [i]) none) s k := by
    intro s b hs k hk
    by_cases es : s = p
    · subst es
      rw [upd_same, cellsOf_term hp]
      by_cases ek : k = i
      · subst ek; simp
      · rw [upd_ne _ _ ek, upd_ne _ _ (by rw [Ne, append_singleton_inj]; simp [ek]),
          cellsOf_term hp]
    · rw [upd_ne _ _ es]
      unfold cellsOf
      split
      · rfl
      · rw [upd_ne _ _ (by rw [Ne, append_singleton_inj]; simp [es])]
  have T1 : TInv D h1 t.root loc (upd K (p ++ [i]) none) := by
    refine ⟨H1.congr hcoh, T.root, T.valid, T.closed, ?_, ?_⟩
    · intro Q x hQ
      by_cases e : Q = p ++ [i]
      · subst e; simp at hQ
      · rw [upd_ne _ _ e] at hQ; exact T.kvalid _ _ hQ
    · intro s k x hQ
      by_cases e : s ++ [k] = p ++ [i]
      · rw [e] at hQ; simp at hQ
      · rw [upd_ne _ _ e] at hQ; exact T.klive _ _ _ hQ
  obtain ⟨nd, tl, hd, -, -, -, hrep, htl⟩ := T1.rep.deref ha
  rw [htl (by omega)] at hrep
  have hlen : nd.len ≠ 1 := by
    intro e
    have := hrep.len_one.1 e j (ValidPath.of_append (T.kvalid _ _ hj).1).2
    rw [cellsOf_term hp, upd_ne _ _ (by rw [Ne, append_singleton_inj]; simp [hji]), hj] at this
    simp at this
  unfold removeCell
  simp only [e1, bind_ok, hd]
  rw [if_neg hlen]
  exact ⟨h1, rfl, T1⟩

/-- Redirect the cell of a present key. -/
theorem setIdx_spec (T : TInv D h root loc K) 
    {p : List Nat} {i a x : Nat} (ha : loc p = some a) (hK : K (p ++ [i]) = some x) (d : Nat) :
    ∃ h', setChild h .term (.heap a) i (.idx d) = .ok h' ∧
      TInv D h' root loc (upd K (p ++ [i]) (some d)) := by
  obtain ⟨hP, hl⟩ := T.kvalid _ _ hK
  have hp : p.length + 1 = D := by simpa using hl
  obtain ⟨hpv, hi⟩ := ValidPath.of_append hP
  obtain ⟨h', e1, H1⟩ := T.rep.setChild ha hi (v := .idx x) (by rw [cellsOf_term hp, hK]; rfl)
    (.idx d)
  have hkind : kindOf D p = .term := by unfold kindOf; rw [if_neg (by omega)]
  rw [hkind] at e1
  have hcoh : ∀ s k, upd (cellsOf D loc K) p (upd (cellsOf D loc K p) i (some (.idx d))) s k =
        cellsOf D loc (upd K (p ++ [i]) (some d)) s k := by
    intro s k
    by_cases es : s = p
    · subst es
      rw [upd_same, cellsOf_term hp]
      by_cases ek : k = i
      · subst ek; simp
      · rw [upd_ne _ _ ek, upd_ne _ _ (by rw [Ne, append_singleton_inj]; simp [ek]),
          cellsOf_term hp]
    · rw [upd_ne _ _ es]
      unfold cellsOf
      split
      · rfl
      · rw [upd_ne _ _ (by rw [Ne, append_singleton_inj]; simp [es])]
  refine ⟨h', e1, ⟨H1.congr (fun s _ _ k _ => hcoh s k), T.root, T.valid, T.closed, ?_, ?_⟩⟩
  · intro Q y hQ
    by_cases e : Q = p ++ [i]
    · subst e; exact ⟨hP, hl⟩
    · rw [upd_ne _ _ e] at hQ; exact T.kvalid _ _ hQ
  · intro s k y hQ
    by_cases e : s ++ [k] = p ++ [i]
    · rw [append_singleton_inj] at e; rw [e.1]; exact ⟨a, ha⟩
    · rw [upd_ne _ _ e] at hQ; exact T.klive _ _ _ hQ

theorem dinv_inj {data : List (Option α)} {keys : List Nat} (H : DInv K data keys)
    (T : TInv D h root loc K) {P Q : List Nat} {d : Nat} (hP : K P = some d) (hQ : K Q = some d) :
    P = Q := by
  obtain ⟨p1, p2⟩ := T.kvalid _ _ hP
  obtain ⟨q1, q2⟩ := T.kvalid _ _ hQ
  have e1 := (H.keyOf _ _ hP).2
  have e2 := (H.keyOf _ _ hQ).2
  rw [e1] at e2
  simp only [Option.some.injEq] at e2
  have a := path_unpath p1
  have b := path_unpath q1
  rw [p2] at a; rw [q2] at b
  rw [← a, ← b, e2]

/-- The vectors after `swap_remove`. -/
theorem dinv_swap {data : List (Option α)} {keys : List Nat} (H : DInv K data keys)
    (T : TInv D h root loc K) {P : List Nat} {d : Nat} (hP : K P = some d)
    {lastKey : Nat} {lastVal : Option α} (hk : keys[keys.length - 1]? = some lastKey)
    (hv : data[data.length - 1]? = some lastVal) {K' : List Nat → Option Nat}
    (hK1 : K' P = none)
    (hK2 : ∀ Q, Q ≠ P → K Q = some (data.length - 1) → K' Q = some d)
    (hK3 : ∀ Q, Q ≠ P → K Q ≠ some (data.length - 1) → K' Q = K Q) :
    DInv K' (data.set d lastVal).dropLast (keys.set d lastKey).dropLast ∧
      ∀ Q, (K' Q).bind (fun x => (((data.set d lastVal).dropLast)[x]?).join) =
        if Q = P then none else (K Q).bind (fun x => (data[x]?).join) := by
  obtain ⟨hd, v, hdv⟩ := H.value hP
  obtain ⟨hd1, hdk⟩ := H.keyOf _ _ hP
  have hlen := H.len
  have hdl : d < keys.length := by omega
  have hlv : data.length - 1 = 0 ∨ ∃ v, lastVal = some v := by
    by_cases e : data.length - 1 = 0
    · exact .inl e
    · obtain ⟨v, hv'⟩ := H.init (data.length - 1) (by omega) (by omega)
      rw [hv] at hv'; exact .inr ⟨v, by simpa using hv'⟩
  constructor
  · constructor
    · simp [hlen]
    · have := H.bound; simp; omega
    · rw [getElem?_swap _ hdl, if_pos (by omega), if_neg (by omega)]; exact H.key0
    · rw [getElem?_swap _ hd, if_pos (by omega), if_neg (by omega)]; exact H.data0
    · intro Q x hQ
      by_cases eQ : Q = P
      · subst eQ; rw [hK1] at hQ; cases hQ
      · by_cases e : K Q = some (data.length - 1)
        · rw [hK2 Q eQ e] at hQ
          cases hQ
          refine ⟨hd1, ?_⟩
          have hne : d ≠ data.length - 1 := by
            intro e'; rw [← e'] at e; exact eQ (dinv_inj H T e hP)
          rw [getElem?_swap _ hdl, if_pos (by omega), if_pos rfl]
          have := (H.keyOf _ _ e).2
          rw [← hlen, hk] at this
          exact this
        · rw [hK3 Q eQ e] at hQ
          obtain ⟨g1, g2⟩ := H.keyOf _ _ hQ
          have g3 := (H.value hQ).1
          refine ⟨g1, ?_⟩
          have hne : x ≠ data.length - 1 := by intro e'; rw [← e'] at e; exact e hQ
          have hne' : x ≠ d := by intro e'; rw [e'] at hQ; exact eQ (dinv_inj H T hQ hP)
          rw [getElem?_swap _ hdl, if_pos (by omega), if_neg hne']; exact g2
    · intro x g1 g2
      simp only [List.length_dropLast, List.length_set] at g2
      by_cases e : x = d
      · subst e
        obtain ⟨Q, hQ⟩ := H.surj (data.length - 1) (by omega) (by omega)
        refine ⟨Q, hK2 Q ?_ hQ⟩
        intro e'; rw [e', hP] at hQ; simp at hQ; omega
      · obtain ⟨Q, hQ⟩ := H.surj x g1 (by omega)
        refine ⟨Q, ?_⟩
        rw [hK3 Q (by intro e'; rw [e', hP] at hQ; simp at hQ; omega)
          (by rw [hQ]; simp; omega), hQ]
    · intro x g1 g2
      simp only [List.length_dropLast, List.length_set] at g2
      rw [getElem?_swap _ hd, if_pos g2]
      by_cases e : x = d
      · rw [if_pos e]
        rcases hlv with h0 | ⟨v, rfl⟩
        · omega
        · exact ⟨v, rfl⟩
      · rw [if_neg e]; exact H.init x g1 (by omega)
  · intro Q
    by_cases eQ : Q = P
    · subst eQ; rw [hK1, if_pos rfl]; rfl
    · rw [if_neg eQ]
      by_cases e : K Q = some (data.length - 1)
      · rw [hK2 Q eQ e, e]
        have hne : d ≠ data.length - 1 := by
          intro e'; rw [← e'] at e; exact eQ (dinv_inj H T e hP)
        simp only [Option.bind_some]
        rw [getElem?_swap _ hd, if_pos (by omega), if_pos rfl, hv]
      · rw [hK3 Q eQ e]
        cases hQ : K Q with
        | none => rfl
        | some x =>
          have g3 := (H.value hQ).1
          have hne : x ≠ data.length - 1 := by intro e'; rw [← e'] at e; exact e hQ
          have hne' : x ≠ d := by intro e'; rw [e'] at hQ; exact eQ (dinv_inj H T hQ hP)
          simp only [Option.bind_some]
          rw [getElem?_swap _ hd, if_pos (by omega), if_neg hne']

/-- What `remove` does to the represented map. -/
theorem remove_spec {t : DT α} {M : Nat → Option α} (R : DRep D t M) (h2 : 2 ≤ D) (h9 : D ≤ 9)
    {k : Nat} (hk : k < 64 ^ D) {k0 : Nat} (hk0 : k0 ≠ k) (hM0 : M k0 ≠ none) (hb0 : k0 / 64 = k / 64) :
    ∃ t', remove D t k = .ok (t', M k) ∧ DRep D t' (upd M k none) ∧
      t'.data.length = t.data.length - (if (M k).isSome then 1 else 0) := by
  obtain ⟨loc, K, S⟩ := R
  have h1 : 1 ≤ D := by omega
  obtain ⟨a, ha⟩ := S.blockLive h1 hk hM0 hb0
  obtain ⟨j, x, hji, hj⟩ : ∃ j x, j ≠ k % 64 ∧ K (path 64 (D - 1) (k / 64) ++ [j]) = some x := by
    rw [S.den] at hM0
    have hlt : k0 < 64 ^ D := by
      apply Classical.byContradiction
      intro h
      rw [if_neg h] at hM0; exact hM0 rfl
    rw [if_pos hlt, path_block h1 hlt, hb0] at hM0
    cases hK : K (path 64 (D - 1) (k / 64) ++ [k0 % 64]) with
    | none => rw [hK] at hM0; exact absurd rfl hM0
    | some x => exact ⟨_, x, by omega, hK⟩
  have hsplit := path_block h1 hk
  have hPv := validPath_path hk
  have hPl := path_length 64 D k
  have hden := S.den_path hPv hPl
  have hupath := unpath_path 64 D k hk
  rw [hupath] at hden
  have hpinj : ∀ k', k' < 64 ^ D → (path 64 D k' = path 64 D k ↔ k' = k) :=
    fun k' hk' => ⟨fun e => path_injOn hk' hk e, fun e => by rw [e]⟩
  have hlev : levelIndices 1 D k = .ok (path 64 D k) := levelIndices_ok h1 h9
  generalize path 64 D k = P at *
  rcases eq_nil_or_append P with rfl | ⟨p, i, rfl⟩
  · simp at hPl; omega
  rw [append_singleton_inj] at hsplit
  rw [← hsplit.1] at hj
  rw [← hsplit.2] at hji
  have hpl : p.length + 1 = D := by simpa using hPl
  have hmap : (List.range (D - 1)).map (· + 0) = List.range (D - 1) := by simp
  have hlast : (p ++ [i]).getLast? = some i := by simp
  obtain ⟨hpv, hi⟩ := ValidPath.of_append hPv
  rw [List.take_append_of_le_length (by omega), List.take_of_length_le (by omega)] at ha
  obtain ⟨r, hr, hroot⟩ := S.tree.root
  have htk : ∀ k, k ≤ p.length → (p ++ [i]).take k = p.take k :=
    fun k hk => List.take_append_of_le_length hk
  obtain ⟨qs, e1, e2, e3⟩ := S.tree.branch_live (P := p ++ [i]) (D - 1) 0 r (by simp; omega)
    (by simpa using hr) (fun k hk => by
      rw [htk k (by omega)]; exact S.tree.take_live _ rfl ha k)
  rw [hmap] at e1
  have hlastq : qs.getLast? = some (.heap a) := by
    obtain ⟨b, q1, q2⟩ := e3 (D - 1 - 1) (by omega)
    rw [show 0 + (D - 1 - 1) + 1 = p.length by omega, htk _ (Nat.le_refl _),
      List.take_length, ha] at q1
    cases q1
    rw [List.getLast?_eq_getElem?, e2]; exact q2
  cases hK : K (p ++ [i]) with
  | none =>
    have hM : M k = none := by rw [hden, hK]; rfl
    obtain ⟨d, e4, e5⟩ := S.tree.idx_any ha hpl hi
    obtain ⟨key, e6, e7⟩ := S.wrong_key h9 hPv hPl hK e5
    rw [hupath] at e7
    refine ⟨t, ?_, ?_, ?_⟩
    · unfold remove getBranch
      rw [indexFrom_ok h9, if_pos hk]
      simp only [bind_ok, hlev, hroot, e1, hlastq, unwrapU, hlast, e4,
        Cell.asIdx, getU_some e6, if_neg e7, pure_eq_ok, hM]
    · have : upd M k none = M := by
        funext x
        by_cases e : x = k
        · subst e; simp [hM]
        · rw [upd_ne _ _ e]
      rw [this]
      exact ⟨loc, K, S⟩
    · simp [hM]
  | some d =>
    obtain ⟨g1, v, g2⟩ := S.data.value hK
    have hM : M k = some v := by rw [hden, hK]; simp [g2]
    obtain ⟨h', e4, T4⟩ := removeCell_spec S.tree hPv hpl ha hK (branch := qs) hji hj
    have hkey := (S.data.keyOf _ _ hK).2
    have hd1 := (S.data.keyOf _ _ hK).1
    rw [hupath] at hkey
    have hlen := S.data.len
    -- the last key
    obtain ⟨Q, hQ⟩ := S.data.surj (t.keys.length - 1) (by omega) (by omega)
    obtain ⟨hQv, hQl⟩ := S.tree.kvalid _ _ hQ
    have hQk := (S.data.keyOf _ _ hQ).2
    obtain ⟨lv, hlv⟩ := S.data.init (t.data.length - 1) (by omega) (by omega)
    have hlastkey : t.keys.getLast? = some (unpath 64 Q) := by rw [List.getLast?_eq_getElem?]; exact hQk
    have hlastval : t.data.getLast? = some (some lv) := by rw [List.getLast?_eq_getElem?]; exact hlv
    have hbase : ∀ t', (do
        let t ← removeKey D { t with heap := h' } k d
        let (v, data) ← swapRemove t.data d
        return ({ t with data := data }, some v)) = .ok (t', some v) →
        remove D t k = .ok (t', M k) := by
      intro t' ht'
      unfold remove getBranch
      rw [indexFrom_ok h9, if_pos hk]
      simp only [bind_ok, hlev, hroot, e1, hlastq, unwrapU, hlast, S.tree.idx ha hK, Cell.asIdx,
        getU_some hkey, if_true]
      rw [← hroot]
      simp only [e4, bind_ok]
      rw [hM]
      exact ht'
    have hswap : swapRemove t.data d = .ok (v, (t.data.set d (some lv)).dropLast) := by
      unfold swapRemove
      simp only [getP_some g2, bind_ok, unwrapU, hlastval, pure_eq_ok]
    have hfin : ∀ (K' : List Nat → Option Nat) (h'' : Heap) (loc' : List Nat → Option Nat),
        TInv D h'' t.root loc' K' →
        K' (p ++ [i]) = none →
        (∀ Q, Q ≠ p ++ [i] → K Q = some (t.data.length - 1) → K' Q = some d) →
        (∀ Q, Q ≠ p ++ [i] → K Q ≠ some (t.data.length - 1) → K' Q = K Q) →
        DRep D ⟨h'', t.root, (t.data.set d (some lv)).dropLast,
          (t.keys.set d (unpath 64 Q)).dropLast⟩ (upd M k none) := by
      intro K' h'' loc' T' k1 k2 k3
      obtain ⟨DI, hval⟩ := dinv_swap S.data S.tree hK hQk hlv k1 k2 k3
      refine ⟨loc', K', T', DI, ?_⟩
      intro k'
      by_cases e : k' = k
      · subst e
        rw [upd_same, if_pos hk, (hpinj _ hk).2 rfl, k1]; rfl
      · rw [upd_ne _ _ e, S.den]
        by_cases hk' : k' < 64 ^ D
        · rw [if_pos hk', if_pos hk', hval, if_neg (fun e' => e ((hpinj k' hk').1 e'))]
        · rw [if_neg hk', if_neg hk']
    by_cases hlk : unpath 64 Q = k
    · -- removing the last element
      have hQP : Q = p ++ [i] := by
        have := path_unpath hQv
        rw [hQl, hlk, (hpinj k hk).2 rfl] at this
        exact this.symm
      have hdl : d = t.keys.length - 1 := by
        rw [hQP, hK] at hQ; simpa using hQ
      have hkd : (t.keys.set d (unpath 64 Q)).dropLast = t.keys.dropLast := by
        rw [hdl]
        congr 1
        apply List.ext_getElem?
        intro j
        by_cases e : j = t.keys.length - 1
        · rw [e, List.getElem?_set_self (by omega), hQk]
        · rw [List.getElem?_set_ne (by omega)]
      refine ⟨⟨h', t.root, (t.data.set d (some lv)).dropLast, t.keys.dropLast⟩, ?_, ?_, ?_⟩
      · apply hbase
        unfold removeKey
        simp only [hlastkey, unwrapU, bind_ok, hlk, ne_eq, not_true_eq_false, if_false,
          pure_eq_ok, hswap]
      · rw [← hkd]
        refine hfin _ _ _ T4 (by simp) ?_ (fun Q' hQ' _ => upd_ne _ _ hQ')
        intro Q' hne hQ'
        rw [← hlen, ← hQ] at hQ'
        rw [hQ] at hQ'
        exact absurd (dinv_inj S.data S.tree hQ' hQ) (by rw [hQP]; exact hne)
      · simp [hM]
    · have hQP : Q ≠ p ++ [i] := by
        intro e; rw [e, hupath] at hlk; exact hlk rfl
      have hdl : d < t.keys.length - 1 := by
        have : d ≠ t.keys.length - 1 := by
          intro e; rw [← e] at hQ; exact hQP (dinv_inj S.data S.tree hQ hK)
        omega
      rcases eq_nil_or_append Q with rfl | ⟨q, j, rfl⟩
      · simp at hQl; omega
      have hql : q.length + 1 = D := by simpa using hQl
      have hKQ : upd K (p ++ [i]) none (q ++ [j]) = some (t.keys.length - 1) := by
        rw [upd_ne _ _ hQP]; exact hQ
      obtain ⟨b, hb⟩ := T4.klive _ _ _ hKQ
      have hterm := T4.terminal_live h1 (i := j) hb hql
      obtain ⟨h'', e5, T5⟩ := setIdx_spec T4 hb hKQ d
      have hd32 : d % 2 ^ 32 = d := Nat.mod_eq_of_lt (by have := S.data.bound; omega)
      refine ⟨⟨h'', t.root, (t.data.set d (some lv)).dropLast,
        (t.keys.set d (unpath 64 (q ++ [j]))).dropLast⟩, ?_, ?_, ?_⟩
      · apply hbase
        unfold removeKey
        have hlevQ : levelIndices 1 D (unpath 64 (q ++ [j])) = .ok (q ++ [j]) := by
          rw [levelIndices_ok h1 h9]
          have := path_unpath hQv
          rw [hQl] at this
          rw [this]
        simp only [hlastkey, unwrapU, bind_ok, ne_eq, hlk, not_false_eq_true, if_true]
        rw [setU_ok _ (by simpa using hdl)]
        simp only [bind_ok, hlevQ, hterm, hd32, e5, pure_eq_ok, hswap]
        rw [set_dropLast _ hdl]
      · refine hfin _ _ _ T5 ?_ ?_ ?_
        · rw [upd_ne _ _ (Ne.symm hQP)]; simp
        · intro Q' hne hQ'
          rw [← hlen] at hQ'
          have := dinv_inj S.data S.tree hQ' hQ
          rw [this]; simp
        · intro Q' hne hQ'
          rw [← hlen] at hQ'
          rw [upd_ne _ _ (by intro e; rw [e] at hQ'; exact hQ' hQ), upd_ne _ _ hne]
      · simp [hM]

/-! ## Iteration -/

variable {t : DT α} {M : Nat → Option α}

theorem DS.some_iff (S : DS D t M loc K) {P : List Nat} (hP : ValidPath 64 P)
    (hl : P.length = D) : (M (unpath 64 P)).isSome = (K P).isSome := by
  rw [S.den_path hP hl]
  cases hK : K P with
  | none => rfl
  | some d =>
    obtain ⟨_, v, hv⟩ := S.data.value hK
    simp [hv]

theorem DS.bits_iff (_S : DS D t M loc K) {p : List Nat} {i : Nat} (hi : i < 64) :
    (locSpec D loc K M).bits p i = true ↔ (∃ a, loc p = some a) ∧ cellsOf D loc K p i ≠ none := by
  simp only [locSpec, hi, decide_true, Bool.true_and, Bool.and_eq_true]
  constructor
  · rintro ⟨h1, h2⟩
    refine ⟨Option.isSome_iff_exists.1 h1, ?_⟩
    intro e; rw [e] at h2; cases h2
  · rintro ⟨⟨a, ha⟩, h2⟩
    refine ⟨by rw [ha]; rfl, ?_⟩
    cases e : cellsOf D loc K p i with
    | none => exact absurd e h2
    | some x => rfl

theorem DS.spec_wf (S : DS D t M loc K) :
    SpecWf 64 D false (locSpec D loc K M) where
  bits_lt p i h := by
    simp only [locSpec, Bool.and_eq_true, decide_eq_true_eq] at h
    exact h.1.1
  terminal p i hp hl hi := by
    have hvi := ValidPath.append hp hi
    have hl' : (p ++ [i]).length = D := by simpa using hl
    show _ = (M (unpath 64 (p ++ [i]))).isSome
    rw [S.some_iff hvi hl', Bool.eq_iff_iff, S.bits_iff hi, cellsOf_term hl]
    constructor
    · rintro ⟨_, h⟩
      cases e : K (p ++ [i]) with
      | none => rw [e] at h; simp at h
      | some d => rfl
    · intro h
      obtain ⟨d, hd⟩ := Option.isSome_iff_exists.1 h
      exact ⟨S.tree.klive _ _ _ hd, by rw [hd]; simp⟩
  upward p i j hp hi hl h := by
    simp only [locSpec, Bool.and_eq_true, decide_eq_true_eq] at h
    obtain ⟨a, ha⟩ := Option.isSome_iff_exists.1 h.1.2
    rw [S.bits_iff hi, cellsOf_branch (by omega), ha]
    exact ⟨S.tree.closed _ _ _ ha, by simp⟩
  exact_child e1 := by cases e1

/-- The node a cursor points to. -/
theorem DS.deref_ptrAt (S : DS D t M loc K) (h9 : D ≤ 9) {p : List Nat} (hv : ValidPath 64 p)
    (hp : p.length < D) : ∃ n, deref t.heap (ptrAt D loc p) = .ok n ∧
      (∀ j, Mask.bit [n.mask] j = (locSpec D loc K M).bits p j) ∧
      (∀ j, j < 64 → n.contains j = .ok ((locSpec D loc K M).bits p j)) := by
  unfold ptrAt
  have hge : ∀ j, ¬ j < 64 → (locSpec D loc K M).bits p j = false := by
    intro j hj
    cases e : (locSpec D loc K M).bits p j with
    | false => rfl
    | true => exact absurd (S.spec_wf.bits_lt p j e) hj
  cases hl : loc p with
  | none =>
    obtain ⟨n, h1, h2⟩ := stat_mask (h := t.heap) h9 hp
    have hz : ∀ j, j < 64 → (locSpec D loc K M).bits p j = false := by
      intro j hj
      cases e : (locSpec D loc K M).bits p j with
      | false => rfl
      | true =>
        obtain ⟨⟨a, ha⟩, _⟩ := (S.bits_iff hj).1 e
        rw [hl] at ha; cases ha
    refine ⟨n, h1, ?_, ?_⟩
    · intro j
      rw [bit_single]
      by_cases hj : j < 64
      · rw [if_pos hj, hz j hj, h2]; simp
      · rw [if_neg hj, hge j hj]
    · intro j hj
      unfold Node.contains
      rw [getBitUnchecked_eq _ hj, hz j hj, h2]; simp
  | some a =>
    obtain ⟨n, tl, h1, -, -, -, h2, -⟩ := S.tree.rep.deref hl
    have hb : ∀ j, j < 64 → (locSpec D loc K M).bits p j = (cellsOf D loc K p j).isSome := by
      intro j hj
      rw [Bool.eq_iff_iff, S.bits_iff hj]
      constructor
      · rintro ⟨_, h⟩
        cases e : cellsOf D loc K p j with
        | none => exact absurd e h
        | some x => rfl
      · intro h
        refine ⟨⟨a, hl⟩, ?_⟩
        intro e; rw [e] at h; cases h
    refine ⟨n, h1, ?_, ?_⟩
    · intro j
      rw [bit_single]
      by_cases hj : j < 64
      · rw [if_pos hj, hb j hj, h2.bits j hj]
      · rw [if_neg hj, hge j hj]
    · intro j hj
      rw [h2.contains hj, hb j hj]

theorem DS.root_ptrAt (S : DS D t M loc K) : t.root = ptrAt D loc [] := by
  obtain ⟨a, h1, h2⟩ := S.tree.root
  unfold ptrAt; rw [h1, h2]

/-- The previous node of a selection. -/
theorem DS.prev_eq (S : DS D t M loc K) {c : Cursor} {p : List Nat}
    (hc : (curRel D loc).pos c p) : prevNode c t (p.length + 1) = .ok (ptrAt D loc p) := by
  unfold prevNode
  by_cases h : p.length + 1 = 1
  · rw [if_pos h]
    have : p = [] := List.length_eq_zero_iff.1 (by omega)
    rw [this, S.root_ptrAt]
  · rw [if_neg h]
    have := hc.2.2 (p.length - 1) (by omega)
    rw [show p.length - 1 + 1 = p.length by omega, List.take_length] at this
    rw [show p.length + 1 - 1 - 1 = p.length - 1 by omega, getU_some this]
    rfl

/-- The child pointer read through the cursor, given that the child exists. -/
theorem DS.child_ptrAt (S : DS D t M loc K) {p : List Nat} {i : Nat} (hv : ValidPath 64 p)
    (hp : p.length + 2 ≤ D) (hi : i < 64) (hb : (locSpec D loc K M).bits p i = true) :
    getChild t.heap (ptrAt D loc p) i = .ok (.ptr (ptrAt D loc (p ++ [i]))) := by
  obtain ⟨⟨a, ha⟩, hF⟩ := (S.bits_iff hi).1 hb
  rw [cellsOf_branch (by omega)] at hF
  cases e : loc (p ++ [i]) with
  | none => rw [e] at hF; simp at hF
  | some b =>
    unfold ptrAt
    rw [ha, e]
    exact S.tree.child ha e

theorem DS.selectU_spec (S : DS D t M loc K) (h9 : D ≤ 9) {c : Cursor} {p : List Nat} {i : Nat}
    (hc : (curRel D loc).pos c p) (hv : ValidPath 64 p) (hi : i < 64) (hp : p.length + 2 ≤ D)
    (hb : (locSpec D loc K M).bits p i = true) :
    ∃ m c', curSelectU c t (p.length + 1) i = .ok (m, c') ∧ m.length = 1 ∧
      (∀ j, m.bit j = (locSpec D loc K M).bits (p ++ [i]) j) ∧
      (curRel D loc).pos c' (p ++ [i]) := by
  obtain ⟨n', e4, e5, -⟩ := S.deref_ptrAt h9 (ValidPath.append hv hi) (by simp; omega)
  have hlen : p.length + 1 - 1 < c.length := by have := hc.1; omega
  refine ⟨[n'.mask], _, ?_, rfl, e5, curRel_extend hc hp⟩
  unfold curSelectU
  rw [if_neg (by omega), S.prev_eq hc]
  simp only [bind_ok, S.child_ptrAt hv hp hi hb, Cell.asPtr, setU_ok _ hlen, e4, pure_eq_ok]

theorem DS.terminal_eq (S : DS D t M loc K) {c : Cursor} {p : List Nat}
    (hc : (curRel D loc).pos c p) (hp : p.length + 1 = D) :
    curTerminal D c t = .ok (ptrAt D loc p) := by
  unfold curTerminal
  by_cases h : D = 1
  · rw [if_pos h]
    have : p = [] := List.length_eq_zero_iff.1 (by omega)
    rw [this, S.root_ptrAt]
  · rw [if_neg h]
    have := hc.2.2 (p.length - 1) (by omega)
    rw [show p.length - 1 + 1 = p.length by omega, List.take_length] at this
    rw [List.getLast?_eq_getElem?, hc.1, show D - 1 - 1 = p.length - 1 by omega, this]
    rfl

theorem DS.curDataU_spec (S : DS D t M loc K) {c : Cursor} {p : List Nat} {i : Nat}
    {d : α} (hc : (curRel D loc).pos c p) (hv : ValidPath 64 p) (hi : i < 64)
    (hp : p.length + 1 = D) (hd : M (unpath 64 (p ++ [i])) = some d) :
    getChild t.heap (ptrAt D loc p) i = .ok (.idx ((K (p ++ [i])).getD 0)) ∧
    t.data[(K (p ++ [i])).getD 0]? = some (some d) ∧ curDataU D c t i = .ok d := by
  have hvi := ValidPath.append hv hi
  have hl : (p ++ [i]).length = D := by simpa using hp
  have hs := S.some_iff hvi hl
  have hden := S.den_path hvi hl
  rw [hd] at hs hden
  obtain ⟨x, hx⟩ := Option.isSome_iff_exists.1 hs.symm
  obtain ⟨a, ha⟩ := S.tree.klive _ _ _ hx
  obtain ⟨_, v, hv'⟩ := S.data.value hx
  rw [hx] at hden
  simp only [Option.bind_some, hv', Option.join_some, Option.some.injEq] at hden
  subst hden
  have hpt : ptrAt D loc p = .heap a := by unfold ptrAt; rw [ha]
  rw [hx, hpt]
  refine ⟨S.tree.idx ha hx, hv', ?_⟩
  unfold curDataU
  rw [S.terminal_eq hc hp, hpt]
  simp only [bind_ok, S.tree.idx ha hx, Cell.asIdx, getU_some hv', unwrapU]

/-- The checked select without the read it does not use: the child pointer is only read if its bit is
set. (`curSelect` reads it in any case, which is what a node without sentinel does not allow.) -/
def selectIf (D : Nat) (c : Cursor) (t : DT α) (level i : Nat) : R (Mask × Cursor) :=
  if level = 0 then curSelectU c t 0 i
  else do
    let prev ← prevNode c t level
    let n ← deref t.heap prev
    let b ← n.contains i
    if b then curSelectU c t level i
    else do
      let e ← emptyNode level D
      let c ← setU c (level - 1) (some e)
      let n ← deref t.heap e
      return ([n.mask], c)

/-- The tree with everything but unchecked cursor moves and unchecked cursor data replaced by ideal
versions (`Iter` uses nothing else). -/
def idealImpl (α : Type) (D : Nat) (M : Nat → Option α) : Impl (DT α) Cursor α :=
  { impl α D with
    exact := false
    data := fun _ k _ => .ok (M k)
    dataU := fun _ k _ => unwrapU (M k)
    select := selectIf D }

theorem DS.selectIf_spec (S : DS D t M loc K) (h9 : D ≤ 9) {c : Cursor} {p : List Nat} {i : Nat}
    (hc : (curRel D loc).pos c p) (hv : ValidPath 64 p) (hi : i < 64) (hp : p.length + 2 ≤ D) :
    ∃ m c', selectIf D c t (p.length + 1) i = .ok (m, c') ∧ m.length = 1 ∧
      (∀ j, m.bit j = (locSpec D loc K M).bits (p ++ [i]) j) ∧
      (curRel D loc).pos c' (p ++ [i]) := by
  obtain ⟨n, e1, -, e2⟩ := S.deref_ptrAt h9 hv (by omega)
  cases hb : (locSpec D loc K M).bits p i with
  | true =>
    obtain ⟨m, c', g1, g2⟩ := S.selectU_spec h9 hc hv hi hp hb
    refine ⟨m, c', ?_, g2⟩
    unfold selectIf
    rw [if_neg (by omega), S.prev_eq hc]
    simp only [bind_ok, e1, e2 i hi, hb, if_true, g1]
  | false =>
    obtain ⟨n', e4, e5, -⟩ := S.deref_ptrAt h9 (ValidPath.append hv hi) (by simp; omega)
    have hlen : p.length + 1 - 1 < c.length := by have := hc.1; omega
    refine ⟨[n'.mask], _, ?_, rfl, e5, curRel_extend hc hp⟩
    have hnone : loc (p ++ [i]) = none := by
      cases e : loc (p ++ [i]) with
      | none => rfl
      | some b =>
        obtain ⟨a, ha⟩ := S.tree.closed _ _ _ e
        have : (locSpec D loc K M).bits p i = true := by
          rw [S.bits_iff hi]
          refine ⟨⟨a, ha⟩, ?_⟩
          rw [cellsOf_branch (by omega), e]; simp
        rw [hb] at this; cases this
    have hpt : ptrAt D loc (p ++ [i]) = .stat (9 - D + (p.length + 1)) := by
      unfold ptrAt; rw [hnone]; simp
    unfold selectIf
    rw [if_neg (by omega), S.prev_eq hc]
    simp only [bind_ok, e1, e2 i hi, hb, Bool.false_eq_true, if_false]
    unfold emptyNode
    rw [if_pos (by omega)]
    rw [hpt] at e4 ⊢
    simp only [bind_ok, setU_ok _ hlen, e4, pure_eq_ok]

/-- The idealised tree obeys the contract. -/
theorem DS.lawful (S : DS D t M loc K) (h1 : 1 ≤ D) (h9 : D ≤ 9) :
    Lawful (idealImpl α D M) t (locSpec D loc K M) (curRel D loc) where
  cfg := validCfg h1 h9
  wf := S.spec_wf
  data_eq p hv hl := rfl
  dataU_eq p d hv hl hd := by
    have : M (unpath 64 p) = some d := hd
    show unwrapU (M (unpath 64 p)) = _
    rw [this]; rfl
  new_ok := ⟨_, rfl, by simp [curRel]⟩
  pos_inv c p h := h.1
  posC_pos c p h := h
  pos_take c p k h := by
    obtain ⟨g1, g2, g3⟩ := h
    refine ⟨g1, by simp; omega, ?_⟩
    intro l hl
    simp only [List.length_take] at hl
    rw [g3 l (by omega), List.take_take]
    congr 4; omega
  select_root c i hc hi := by
    obtain ⟨n, e1, e2, -⟩ := S.deref_ptrAt (p := []) h9 ValidPath.nil (by simp; omega)
    refine ⟨[n.mask], c, ?_, rfl, e2, hc, by simp; omega, by simp⟩
    show selectIf D c t 0 i = _
    unfold selectIf curSelectU
    rw [← S.root_ptrAt] at e1
    simp only [if_true, e1, bind_ok, pure_eq_ok]
  selectU_root c i hc hi := by
    obtain ⟨n, e1, e2, -⟩ := S.deref_ptrAt (p := []) h9 ValidPath.nil (by simp; omega)
    refine ⟨[n.mask], c, ?_, rfl, e2, hc, by simp; omega, by simp⟩
    show curSelectU c t 0 i = _
    unfold curSelectU
    rw [← S.root_ptrAt] at e1
    simp only [if_true, e1, bind_ok, pure_eq_ok]
  select_node c p i hc hv hi hp := S.selectIf_spec h9 hc hv hi hp
  selectU_node c p i hc hv hi hp hb := S.selectU_spec h9 hc hv hi hp hb
  curDataU_eq c p i d hc hv hi hp hd := (S.curDataU_spec hc hv hi hp hd).2.2

/-- Iteration only uses the unchecked cursor. -/
theorem iterRun_ideal (t : DT α) (M : Nat → Option α) (fuel n : Nat) :
    (idealImpl α D M).iterRun t fuel n = (impl α D).iterRun t fuel n := by
  have hV : (idealImpl α D M).iterVisit t = (impl α D).iterVisit t := rfl
  have hL : ∀ f st, (idealImpl α D M).iterLoop t f st = (impl α D).iterLoop t f st := by
    intro f
    induction f with
    | zero => intro st; rfl
    | succ f ih =>
      intro st
      unfold Impl.iterLoop
      simp only [hV, ih]
      rfl
  have hN : ∀ st, (idealImpl α D M).iterNext t fuel st = (impl α D).iterNext t fuel st :=
    fun st => by
      unfold Impl.iterNext
      simp only [hL]
      rfl
  have hT : ∀ n st, (idealImpl α D M).iterTake t fuel n st = (impl α D).iterTake t fuel n st := by
    intro n
    induction n with
    | zero => intro st; rfl
    | succ n ih => intro st; unfold Impl.iterTake; simp only [hN, ih]
  unfold Impl.iterRun
  simp only [hT]
  rfl

/-! ## Drop and enumeration -/

variable {F : List Nat → Nat → Option Cell}

/-- node.rs:359-373: everything below (and including) the node at `p` is freed, nothing else. -/
theorem dropTree_spec : ∀ (m : Nat) (p : List Nat) (h : Heap) (loc : List Nat → Option Nat)
    (a : Nat), p.length + m + 1 = D → loc p = some a → HRep D h loc F →
    (∀ q b, p <+: q → loc q = some b → ∀ k, k < 64 → F q k = cellsOf D loc K q k) →
    (∀ q b, p <+: q → loc q = some b → ValidPath 64 q ∧ q.length < D) →
    (∀ q b k, p <+: q → loc q = some b → p.length ≤ k → ∃ c, loc (q.take k) = some c) →
    ∃ h' loc', dropNodeWithChilds (m + 1) h (.heap a) = .ok h' ∧ HRep D h' loc' F ∧
      (∀ q, p <+: q → loc' q = none) ∧ (∀ q, ¬ p <+: q → loc' q = loc q) := by
  intro m
  induction m with
  | zero =>
    intro p h loc a hm ha H _ hv _
    obtain ⟨h', e1, H1⟩ := H.drop ha
    have hkind : kindOf D p = .term := by unfold kindOf; rw [if_neg (by omega)]
    rw [hkind] at e1
    refine ⟨h', _, e1, H1, ?_, ?_⟩
    · intro q hq
      by_cases e : q = p
      · subst e; simp
      · rw [upd_ne _ _ e]
        cases hl : loc q with
        | none => rfl
        | some b =>
          have := (hv q b hq hl).2
          exact absurd (hq.eq_of_length_le (by omega)).symm e
    · intro q hq
      rw [upd_ne]
      intro e; rw [e] at hq; exact hq (List.prefix_refl p)
  | succ m ih =>
    intro p h loc a hm ha H hcoh hv hcl
    obtain ⟨n, tl, e1, -, -, hk, hrep, -⟩ := H.deref ha
    have hbr : p.length + 1 < D := by omega
    have hkind : kindOf D p = .branch := by unfold kindOf; rw [if_pos hbr]
    have hone : ∀ i, i ∈ Mask.ones [n.mask] → i < 64 ∧ ∃ b, loc (p ++ [i]) = some b ∧
        F p i = some (.ptr (.heap b)) := by
      intro i hi
      rw [mem_ones] at hi
      have h64 : i < 64 := by simpa using bit_lt hi
      rw [bit_single, if_pos h64, hrep.bits i h64] at hi
      have hc := hcoh p a (List.prefix_refl p) ha i h64
      rw [cellsOf_branch hbr] at hc
      cases e : loc (p ++ [i]) with
      | none => rw [hc, e] at hi; cases hi
      | some b => rw [e] at hc; exact ⟨h64, b, rfl, hc⟩
    -- the loop over the children
    have loop : ∀ (is : List Nat) (h1 : Heap) (loc1 : List Nat → Option Nat), is.Nodup →
        (∀ i ∈ is, i ∈ Mask.ones [n.mask]) → HRep D h1 loc1 F → loc1 p = some a →
        (∀ i ∈ is, ∀ q, p ++ [i] <+: q → loc1 q = loc q) →
        ∃ h2 loc2, (is.foldlM (fun h i => do
            let c ← getChild h (.heap a) i
            let q ← c.asPtr
            dropNodeWithChilds (m + 1) h q) h1 : R Heap) = .ok h2 ∧ HRep D h2 loc2 F ∧
          (∀ i ∈ is, ∀ q, p ++ [i] <+: q → loc2 q = none) ∧
          (∀ q, (∀ i ∈ is, ¬ p ++ [i] <+: q) → loc2 q = loc1 q) := by
      intro is
      induction is with
      | nil =>
        intro h1 loc1 _ _ H1 _ _
        exact ⟨h1, loc1, rfl, H1, by simp, fun q _ => rfl⟩
      | cons i is ih2 =>
        intro h1 loc1 hnd hmem H1 ha1 hsame
        obtain ⟨h64, b, hb, hF⟩ := hone i (hmem i (by simp))
        have g1 := H1.getChild ha1 h64 hF
        have hself := hsame i (by simp)
        have htk : ∀ (q : List Nat) (k : Nat), p ++ [i] <+: q → p.length + 1 ≤ k →
            p ++ [i] <+: q.take k := by
          intro q k hq hk
          rw [List.prefix_take_iff]
          exact ⟨hq, by simpa using hk⟩
        obtain ⟨h2, loc2, e2, H2, f1, f2⟩ := ih (p ++ [i]) h1 loc1 b (by simp; omega)
          (by rw [hself _ (List.prefix_refl _)]; exact hb) H1 (by
            intro q x hq hx k hk
            have hpq : p <+: q := (List.prefix_append p [i]).trans hq
            rw [hself q hq] at hx
            rw [hcoh q x hpq hx k hk]
            unfold cellsOf
            split
            · rw [hself _ (hq.trans (List.prefix_append q [k]))]
            · rfl) (by
            intro q x hq hx
            rw [hself q hq] at hx
            exact hv q x ((List.prefix_append p [i]).trans hq) hx) (by
            intro q x k hq hx hk
            simp only [List.length_append, List.length_singleton] at hk
            rw [hself q hq] at hx
            rw [hself _ (htk q k hq hk)]
            exact hcl q x k ((List.prefix_append p [i]).trans hq) hx (by omega))
        have hpi : ¬ p ++ [i] <+: p := by
          intro h; have := h.length_le; simp at this; omega
        obtain ⟨h3, loc3, e3, H3, f3, f4⟩ := ih2 h2 loc2 (List.nodup_cons.1 hnd).2
          (fun j hj => hmem j (by simp [hj])) H2 (by rw [f2 p hpi]; exact ha1) (by
            intro j hj q hq
            have hij : ¬ p ++ [i] <+: q := by
              intro h
              have := prefix_antisymm_len h hq
              subst this
              exact (List.nodup_cons.1 hnd).1 hj
            rw [f2 q hij]
            exact hsame j (by simp [hj]) q hq)
        refine ⟨h3, loc3, ?_, H3, ?_, ?_⟩
        · simp only [List.foldlM_cons, g1, bind_ok, Cell.asPtr, e2]
          exact e3
        · intro j hj q hq
          rcases List.mem_cons.1 hj with rfl | hj
          · rw [f4 q ?_, f1 q hq]
            intro j' hj' h
            have := prefix_antisymm_len h hq
            subst this
            exact (List.nodup_cons.1 hnd).1 hj'
          · exact f3 j hj q hq
        · intro q hq
          rw [f4 q (fun j hj => hq j (by simp [hj])), f2 q (hq i (by simp))]
    obtain ⟨h2, loc2, e2, H2, f1, f2⟩ := loop (Mask.ones [n.mask]) h loc
      ((ones_pairwise [n.mask]).imp (fun h => Nat.ne_of_lt h)) (fun i hi => hi) H ha (fun _ _ _ _ => rfl)
    have hp2 : loc2 p = some a := by
      rw [f2 p ?_]
      · exact ha
      · intro i _ h; have := h.length_le; simp at this; omega
    obtain ⟨h3, e3, H3⟩ := H2.drop hp2
    rw [hkind] at e3
    refine ⟨h3, _, ?_, H3, ?_, ?_⟩
    · rw [dropNodeWithChilds]
      simp only [e1, bind_ok]
      rw [e2]
      exact e3
    · intro q hq
      by_cases e : q = p
      · subst e; simp
      · rw [upd_ne _ _ e]
        rcases prefix_cases hq with e' | ⟨i, hi⟩
        · exact absurd e' e
        · by_cases hmem : i ∈ Mask.ones [n.mask]
          · exact f1 i hmem q hi
          · rw [f2 q ?_]
            · cases hl : loc q with
              | none => rfl
              | some b =>
                exfalso
                obtain ⟨c, hc⟩ := hcl q b (p.length + 1) hq hl (by omega)
                have htk := prefix_take hi
                simp only [List.length_append, List.length_singleton] at htk
                rw [htk] at hc
                have h64 := (ValidPath.of_append (hv _ _ (List.prefix_append p [i]) hc).1).2
                apply hmem
                rw [mem_ones, bit_single, if_pos h64, hrep.bits i h64,
                  hcoh p a (List.prefix_refl p) ha i h64, cellsOf_branch hbr, hc]
                rfl
            · intro j hj h
              exact hmem (prefix_antisymm_len hi h ▸ hj)
    · intro q hq
      rw [upd_ne _ _ (by intro e; rw [e] at hq; exact hq (List.prefix_refl p))]
      rw [f2 q]
      intro i _ h
      exact hq ((List.prefix_append p [i]).trans h)

theorem DS.dropNodes (S : DS D t M loc K) (h1 : 1 ≤ D) :
    ∃ h', dropNodeWithChilds D t.heap t.root = .ok h' ∧ ∀ a, h'.node a = none := by
  obtain ⟨a, ha, hr⟩ := S.tree.root
  obtain ⟨h', loc', e1, H1, f1, -⟩ := dropTree_spec (K := K) (D - 1) [] t.heap loc a
    (by simp; omega) ha S.tree.rep (fun _ _ _ _ _ _ => rfl) (fun q b _ hb => S.tree.valid q b hb)
    (fun q b k _ hb _ => S.tree.take_live _ rfl hb k)
  rw [show D - 1 + 1 = D by omega] at e1
  refine ⟨h', by rw [hr]; exact e1, ?_⟩
  intro b
  cases e : h'.node b with
  | none => rfl
  | some n =>
    obtain ⟨p, hp⟩ := H1.cover b n e
    rw [f1 p (List.nil_prefix)] at hp; cases hp

/-- The key and value vectors enumerate the map. -/
theorem DS.enumerate (S : DS D t M loc K) :
    ∃ vs : List α, t.data = none :: vs.map some ∧ t.keys.length = vs.length + 1 ∧
      (t.keys.drop 1).Nodup ∧
      ∀ k v, (∃ j : Nat, (t.keys.drop 1)[j]? = some k ∧ vs[j]? = some v) ↔
        k < 64 ^ D ∧ M k = some v := by
  have hlen := S.data.len
  obtain ⟨hn, -⟩ := List.getElem?_eq_some_iff.1 S.data.data0
  obtain ⟨vs, hvs⟩ := all_some (l := t.data.drop 1) (by
    intro d hd
    simp only [List.length_drop] at hd
    obtain ⟨v, hv⟩ := S.data.init (1 + d) (by omega) (by omega)
    exact ⟨v, by rw [List.getElem?_drop]; exact hv⟩)
  have hdata : t.data = none :: vs.map some := by
    rw [← hvs]
    have := S.data.data0
    match h : t.data with
    | [] => rw [h] at hn; simp at hn
    | x :: l => rw [h] at this; simp at this; simp [this]
  have hl2 : t.data.length = vs.length + 1 := by rw [hdata]; simp
  refine ⟨vs, hdata, by omega, ?_, ?_⟩
  · rw [List.Nodup, List.pairwise_iff_getElem]
    intro i j hi hj hij
    simp only [List.length_drop] at hi hj
    rw [List.getElem_drop, List.getElem_drop]
    intro e
    obtain ⟨P, hP⟩ := S.data.surj (1 + i) (by omega) (by omega)
    obtain ⟨Q, hQ⟩ := S.data.surj (1 + j) (by omega) (by omega)
    have a := (S.data.keyOf _ _ hP).2
    have b := (S.data.keyOf _ _ hQ).2
    rw [List.getElem?_eq_getElem (by omega)] at a b
    rw [e] at a
    rw [a] at b
    simp only [Option.some.injEq] at b
    obtain ⟨p1, p2⟩ := S.tree.kvalid _ _ hP
    obtain ⟨q1, q2⟩ := S.tree.kvalid _ _ hQ
    have a' := path_unpath p1
    have b' := path_unpath q1
    rw [p2] at a'; rw [q2] at b'
    have : P = Q := by rw [← a', ← b', b]
    rw [this, hQ] at hP
    simp at hP; omega
  · intro k v
    constructor
    · rintro ⟨j, hj, hv⟩
      rw [List.getElem?_drop] at hj
      obtain ⟨hjl, -⟩ := List.getElem?_eq_some_iff.1 hj
      obtain ⟨P, hP⟩ := S.data.surj (1 + j) (by omega) (by omega)
      have a := (S.data.keyOf _ _ hP).2
      rw [hj] at a
      simp only [Option.some.injEq] at a
      obtain ⟨p1, p2⟩ := S.tree.kvalid _ _ hP
      have hlt : unpath 64 P < 64 ^ D := by rw [← p2]; exact unpath_lt p1
      rw [a]
      refine ⟨hlt, ?_⟩
      rw [S.den_path p1 p2, hP]
      have : t.data[1 + j]? = some (some v) := by
        rw [hdata, Nat.add_comm, List.getElem?_cons_succ, List.getElem?_map, hv]; rfl
      simp [this]
    · rintro ⟨hk, hM⟩
      have hp := validPath_path hk
      have hd := S.den k
      rw [if_pos hk, hM] at hd
      cases hK : K (path 64 D k) with
      | none => rw [hK] at hd; cases hd
      | some d =>
        rw [hK] at hd
        obtain ⟨g1, g2⟩ := S.data.keyOf _ _ hK
        rw [unpath_path 64 D k hk] at g2
        refine ⟨d - 1, ?_, ?_⟩
        · rw [List.getElem?_drop, show 1 + (d - 1) = d by omega]; exact g2
        · simp only [Option.bind_some] at hd
          rw [hdata, show d = (d - 1) + 1 by omega, List.getElem?_cons_succ,
            List.getElem?_map] at hd
          cases e : vs[d - 1]? with
          | none => rw [e] at hd; cases hd
          | some w => rw [e] at hd; simpa using hd.symm

/-- `data.len() - 1` is the number of stored elements. -/
theorem DRep.card_eq (R : DRep D t M) : t.data.length = card (64 ^ D) M + 1 := by
  obtain ⟨loc, K, S⟩ := R
  obtain ⟨vs, h1, h2, h3, h4⟩ := S.enumerate
  obtain ⟨p1, -⟩ := values_perm (by simp [h2]) h3 h4
  have := p1.length_eq
  unfold card
  rw [← this]
  simp [h1, h2]

/-- dense_tree.rs:289-297. -/
theorem keyValues_spec (R : DRep D t M) :
    ∃ (ks : List Nat) (vs : List α), keyValues t = .ok (ks, vs.map some) ∧ ks.length = vs.length ∧ ks.Nodup ∧
      ∀ k v, (∃ j : Nat, ks[j]? = some k ∧ vs[j]? = some v) ↔ k < 64 ^ D ∧ M k = some v := by
  obtain ⟨loc, K, S⟩ := R
  obtain ⟨vs, h1, h2, h3, h4⟩ := S.enumerate
  refine ⟨t.keys.drop 1, vs, ?_, by simp [h2], h3, h4⟩
  unfold keyValues
  rw [if_pos ⟨by omega, by rw [h1]; simp⟩, h1]
  rfl

/-- dense_tree.rs:312-323. -/
theorem dropImpl_spec (R : DRep D t M) (h1 : 1 ≤ D) :
    ∃ vs h', dropImpl D t = .ok (vs, h') ∧ List.Perm vs (valuesOf (64 ^ D) M) ∧
      ∀ a, h'.node a = none := by
  obtain ⟨loc, K, S⟩ := R
  obtain ⟨vs, g1, g2, g3, g4⟩ := S.enumerate
  obtain ⟨-, p2⟩ := values_perm (by simp [g2]) g3 g4
  obtain ⟨h', e1, e2⟩ := S.dropNodes h1
  refine ⟨vs, h', ?_, p2, e2⟩
  unfold dropImpl
  rw [if_pos (by rw [g1]; simp), g1]
  simp only [List.drop_succ_cons, List.drop_zero, dropSlice_map rfl, bind_ok, e1, pure_eq_ok]

/-! ## Histories -/

theorem DRep.keys_lt (R : DRep D t M) {k : Nat} (hk : ¬ k < 64 ^ D) : M k = none := by
  obtain ⟨loc, K, S⟩ := R
  rw [S.den, if_neg hk]

/-- Overwriting the value at a data index. -/
theorem writeRef_spec {k : Nat} {w : α} {i : Nat} (R : DRep D t M) (hi : t.data[i]? = some (some w))
    (hk : k < 64 ^ D)
    (hKey : ∀ loc K, DS D t M loc K → K (path 64 D k) = some i) (g : α → α) :
    ∃ t', writeRef t i g = .ok (t', w) ∧ DRep D t' (upd M k (some (g w))) := by
  obtain ⟨loc, K, S⟩ := R
  have hK := hKey loc K S
  obtain ⟨hil, -⟩ := List.getElem?_eq_some_iff.1 hi
  refine ⟨{ t with data := t.data.set i (some (g w)) }, ?_, loc, K, S.tree, ⟨?_, ?_, S.data.key0, ?_,
    S.data.keyOf, S.data.surj, ?_⟩, ?_⟩
  · unfold writeRef
    simp only [getU_some hi, bind_ok, unwrapU, setU_ok _ hil, pure_eq_ok]
  · simp [S.data.len]
  · simpa using S.data.bound
  · have := (S.data.keyOf _ _ hK).1
    simp only
    rw [List.getElem?_set_ne (by omega)]; exact S.data.data0
  · intro d' q1 q2
    by_cases e : d' = i
    · subst e; exact ⟨g w, by simp [hil]⟩
    · simp only at q2 ⊢
      rw [List.getElem?_set_ne (by omega)]
      exact S.data.init d' q1 (by simpa using q2)
  · intro k'
    by_cases e : k' = k
    · subst e
      rw [upd_same, if_pos hk, hK]
      simp [hil]
    · rw [upd_ne _ _ e, S.den]
      by_cases hk' : k' < 64 ^ D
      · rw [if_pos hk', if_pos hk']
        cases hK' : K (path 64 D k') with
        | none => rfl
        | some d' =>
          have : i ≠ d' := by
            intro e'
            subst e'
            have := dinv_inj S.data S.tree hK hK'
            exact e (path_injOn hk' hk this.symm)
          simp only [Option.bind_some]
          rw [List.getElem?_set_ne this]
      · rw [if_neg hk', if_neg hk']

/-- The position holding the value of `k` is the one its cell points to. -/
theorem index_unique (R : DRep D t M) {i : Nat} {k : Nat} (hk : k < 64 ^ D)
    (hi : t.keys[i]? = some k) (h1 : 1 ≤ i) :
    ∀ loc K, DS D t M loc K → K (path 64 D k) = some i := by
  intro loc K S
  obtain ⟨hil, -⟩ := List.getElem?_eq_some_iff.1 hi
  obtain ⟨P, hP⟩ := S.data.surj i h1 hil
  have := (S.data.keyOf _ _ hP).2
  rw [hi] at this
  simp only [Option.some.injEq] at this
  obtain ⟨p1, p2⟩ := S.tree.kvalid _ _ hP
  have e := path_unpath p1
  rw [p2, ← this] at e
  rw [e]; exact hP

theorem mutValues_spec (R : DRep D t M) (g : Nat → α → α) :
    ∃ t', mutValues t g = .ok t' ∧ DRep D t' (fun k => (M k).map (g k)) := by
  obtain ⟨loc, K, S⟩ := R
  obtain ⟨vs, h1, h2, h3, h4⟩ := S.enumerate
  have hkv : keyValues t = .ok (t.keys.drop 1, vs.map some) := by
    unfold keyValues
    rw [if_pos ⟨by omega, by rw [h1]; simp⟩, h1]; rfl
  have hz : ∀ (j k : Nat) (v : Option α), (t.keys.drop 1)[j]? = some k →
      (vs.map some)[j]? = some v →
      (List.zipWith (fun k (v : Option α) => v.map (g k)) (t.keys.drop 1) (vs.map some))[j]? =
        some (v.map (g k)) := by
    intro j k v q1 q2
    rw [List.getElem?_zipWith, q1, q2]
  generalize hzd : List.zipWith (fun k (v : Option α) => v.map (g k)) (t.keys.drop 1) (vs.map some) = zs at *
  have hzl : zs.length = vs.length := by rw [← hzd]; simp [h2]
  have hget : ∀ d, 1 ≤ d → ∀ k v, t.keys[d]? = some k → t.data[d]? = some (some v) →
      (none :: zs)[d]? = some (some (g k v)) := by
    intro d hd k v hk hv
    obtain ⟨d, rfl⟩ : ∃ e, d = e + 1 := ⟨d - 1, by omega⟩
    rw [h1, List.getElem?_cons_succ] at hv
    rw [List.getElem?_cons_succ, hz d k (some v) (by rw [List.getElem?_drop, Nat.add_comm]; exact hk) hv]
    rfl
  have hget2 : ∀ d, 1 ≤ d → d < t.data.length → ∃ k v, t.keys[d]? = some k ∧
      t.data[d]? = some (some v) := by
    intro d q1 q2
    obtain ⟨v, hv⟩ := S.data.init d q1 q2
    exact ⟨_, v, List.getElem?_eq_getElem (by rw [S.data.len]; exact q2), hv⟩
  refine ⟨⟨t.heap, t.root, none :: zs, t.keys⟩, ?_, loc, K, S.tree,
    ⟨?_, ?_, S.data.key0, rfl, S.data.keyOf, S.data.surj, ?_⟩, ?_⟩
  · unfold mutValues
    rw [hkv]
    simp only [bind_ok, pure_eq_ok, hzd]
    rw [h1]; rfl
  · simp [h2, hzl]
  · have := S.data.bound
    rw [h1] at this
    simp [hzl] at this ⊢; exact this
  · intro d q1 q2
    obtain ⟨k, v, g1, g2⟩ := hget2 d q1 (by rw [h1]; simp [hzl] at q2 ⊢; exact q2)
    exact ⟨_, hget d q1 k v g1 g2⟩
  · intro k
    rw [S.den]
    by_cases hk : k < 64 ^ D
    · rw [if_pos hk, if_pos hk]
      cases hK : K (path 64 D k) with
      | none => rfl
      | some d =>
        obtain ⟨q1, q2⟩ := S.data.keyOf _ _ hK
        obtain ⟨q3, v, q4⟩ := S.data.value hK
        rw [unpath_path 64 D k hk] at q2
        simp [q4, hget d q1 k v q2 q4]
    · rw [if_neg hk, if_neg hk]; rfl

/-- The reference returned by `get_or_insert` is the entry of `k`. -/
theorem getOrInsertImpl_key (R : DRep D t M) (h1 : 1 ≤ D) (h9 : D ≤ 9) {k : Nat}
    (hk : k < 64 ^ D) (ins : Bool) (v : α) {out : InsOut α}
    (he : getOrInsertImpl D t k ins v = .ok out) :
    out.tree.keys[out.dataIndex]? = some k ∧ 1 ≤ out.dataIndex := by
  obtain ⟨loc, K, S⟩ := R
  have hPv := validPath_path hk
  have hPl := path_length 64 D k
  obtain ⟨w, loc', b, e1, T1, hb, hs, hl⟩ := insertWalk_spec S.tree h9 h1 hPv hPl
  have hupath := unpath_path 64 D k hk
  have hlev : levelIndices 1 D k = .ok (path 64 D k) := levelIndices_ok h1 h9
  generalize path 64 D k = P at *
  rcases eq_nil_or_append P with rfl | ⟨p, i, rfl⟩
  · simp at hPl; omega
  have hpl : p.length + 1 = D := by simpa using hPl
  have htk : (p ++ [i]).take (D - 1) = p := by
    rw [List.take_append_of_le_length (by omega), List.take_of_length_le (by omega)]
  have hp2 := hb
  rw [htk] at hp2 hs
  have hread := read_slot T1 hp2 hs
  have hlast : (p ++ [i]).getLast? = some i := by simp
  obtain ⟨hpv, hi⟩ := ValidPath.of_append hPv
  obtain ⟨n, tl, hd, -, -, -, hrep, -⟩ := T1.rep.deref hp2
  have hc := hrep.contains hi
  rw [cellsOf_term hpl] at hc
  unfold getOrInsertImpl at he
  simp only [hlev, bind_ok, e1, hread, hlast, unwrapU, hd] at he
  cases hK : K (p ++ [i]) with
  | some d =>
    rw [hK] at hc
    simp only [Option.map_some, Option.isSome_some] at hc
    obtain ⟨g1, ov, g2⟩ := S.data.value hK
    have hkey := S.data.keyOf _ _ hK
    rw [hupath] at hkey
    simp only [hc, bind_ok, if_true, T1.idx hp2 hK, Cell.asIdx, getU_some g2] at he
    cases ins with
    | true =>
      simp only [if_true, setU_ok _ g1, bind_ok, pure_eq_ok, Except.ok.injEq] at he
      subst he
      exact ⟨hkey.2, hkey.1⟩
    | false =>
      simp only [Bool.false_eq_true, if_false, bind_ok, pure_eq_ok, Except.ok.injEq] at he
      subst he
      exact ⟨hkey.2, hkey.1⟩
  | none =>
    rw [hK] at hc
    simp only [Option.map_none, Option.isSome_none] at hc
    obtain ⟨h', x, a', w', e2, e3, -⟩ := insertTerm_spec T1 hPv hpl hp2 hs hK
      (t.data.length % 2 ^ 32)
    simp only [hc, bind_ok, Bool.false_eq_true, if_false, e2, e3, pure_eq_ok,
      Except.ok.injEq] at he
    subst he
    obtain ⟨hn, -⟩ := List.getElem?_eq_some_iff.1 S.data.data0
    refine ⟨?_, by simp only; omega⟩
    simp only
    rw [← S.data.len]; simp

/-- The operations a damaged tree supports: anything that adds or modifies, reading a key of a block of
64 keys that holds an element, removing a key from a block that holds another one. -/
def _root_.Hibit.Dense.Op.Grows (M : Nat → Option α) : Op α → Prop
  | .remove k => Occupied (put M k none) (k / 64)
  | .get k => Occupied M (k / 64)
  | _ => True

/-- Every operation of the history is supported. -/
def GrowsOnly (M : Nat → Option α) : List (Op α) → Prop
  | [] => True
  | op :: ops => op.Grows M ∧ GrowsOnly (op.spec M).1 ops

variable {op : Op α}

theorem step_spec (R : DRep D t M) (h2 : Op.OkDepth D op) (h9 : D ≤ 9)
    (hr : op.InRange (64 ^ D)) (hg : op.Grows M) (hb : card (64 ^ D) (op.spec M).1 < 2 ^ 32) :
    ∃ t', step D t op = .ok (t', (op.spec M).2) ∧ DRep D t' (op.spec M).1 := by
  have h1 : 1 ≤ D := by
    cases op with
    | remove k => exact Nat.le_of_succ_le h2
    | _ => exact h2
  have hcard := R.card_eq
  cases op with
  | insert k v =>
    have hk : k < 64 ^ D := hr
    obtain ⟨out, e1, e2, -, e4, -⟩ := getOrInsertImpl_spec R h1 h9 hk true v (by
      intro hM
      have : card (64 ^ D) (put M k (some v)) < 2 ^ 32 := hb
      rw [card_put_none hk hM] at this
      omega)
    refine ⟨out.tree, ?_, e2⟩
    simp only [step, Dense.insert]
    rw [indexFrom_ok h9, if_pos hk]
    simp only [bind_ok, e1, pure_eq_ok, e4, if_true]
    rfl
  | getOrInsert k dflt g =>
    have hk : k < 64 ^ D := hr
    obtain ⟨out, e1, e2, e3, e4, -⟩ := getOrInsertImpl_spec R h1 h9 hk false dflt (by
      intro hM
      have : card (64 ^ D) (put M k (some (g ((M k).getD dflt)))) < 2 ^ 32 := hb
      rw [card_put_none hk hM] at this
      omega)
    obtain ⟨k1, k2⟩ := getOrInsertImpl_key R h1 h9 hk false dflt e1
    simp only [Bool.false_eq_true, if_false] at e2 e3 e4
    obtain ⟨t', e5, e6⟩ := writeRef_spec e2 e3 hk (index_unique e2 hk k1 k2) g
    refine ⟨t', ?_, ?_⟩
    · simp only [step, getOrInsert]
      rw [indexFrom_ok h9, if_pos hk]
      simp only [bind_ok, e1, e5, pure_eq_ok, e4]
      rfl
    · have : upd (upd M k (some ((M k).getD dflt))) k (some (g ((M k).getD dflt))) =
          put M k (some (g ((M k).getD dflt))) := by
        funext x
        unfold upd put
        split <;> rfl
      rw [this] at e6
      exact e6
  | remove k =>
    have hk : k < 64 ^ D := hr
    obtain ⟨k0, g1, g2⟩ := hg
    have hne : k0 ≠ k := by
      intro e; subst e; exact g2 (by simp [put])
    obtain ⟨t', e1, e2, -⟩ := remove_spec R h2 h9 hk hne (by simpa [put, hne] using g2) g1
    refine ⟨t', ?_, e2⟩
    simp only [step, e1, bind_ok, pure_eq_ok]
    rfl
  | get k =>
    refine ⟨t, ?_, R⟩
    obtain ⟨k0, g1, g2⟩ := hg
    simp only [step, get_spec R h1 h9 hr g2 g1, bind_ok, pure_eq_ok]
    rfl
  | mutValues g =>
    obtain ⟨t', e1, e2⟩ := mutValues_spec R g
    refine ⟨t', ?_, e2⟩
    simp only [step, e1, bind_ok, pure_eq_ok]
    rfl

/-- **Refinement of histories.** -/
theorem run_spec (h9 : D ≤ 9) : ∀ (ops : List (Op α)) (t : DT α) (M : Nat → Option α),
    DRep D t M → (∀ op ∈ ops, op.OkDepth D) → (∀ op ∈ ops, op.InRange (64 ^ D)) → Bounded (64 ^ D) (2 ^ 32) M ops → GrowsOnly M ops →
    ∃ t', run D t ops = .ok (t', (specRun M ops).2) ∧ DRep D t' (specRun M ops).1 := by
  intro ops
  induction ops with
  | nil => intro t M R _ _ _ _; exact ⟨t, rfl, R⟩
  | cons op ops ih =>
    intro t M R h2 hr hb hg
    have hb' : card (64 ^ D) (op.spec M).1 < 2 ^ 32 := by
      have := hb.2
      cases ops with
      | nil => exact this
      | cons o os => exact this.1
    obtain ⟨t1, e1, R1⟩ := step_spec R (h2 op (by simp)) h9 (hr op (by simp)) hg.1 hb'
    obtain ⟨t2, e2, R2⟩ := ih t1 _ R1 (fun o ho => h2 o (by simp [ho])) (fun o ho => hr o (by simp [ho])) hb.2 hg.2
    refine ⟨t2, ?_, R2⟩
    simp only [run, e1, bind_ok, e2, pure_eq_ok]
    rfl

/-! ## Trees with wrong header lengths -/

/-- A tree whose branch headers count no sentinel is a damaged tree. -/
theorem DRep.of_fix {ex : List Nat → Prop} (R : Dense.DRep ex D (fixT t) M) : DRep D t M := by
  obtain ⟨loc, K, S⟩ := R
  refine ⟨loc, K, ⟨⟨?_, S.tree.rep.inj, ?_, ?_⟩, S.tree.root, S.tree.valid, S.tree.closed,
    S.tree.kvalid, S.tree.klive⟩, S.data, S.den⟩
  · intro p a hp
    obtain ⟨n', h1, h2, h3⟩ := S.tree.rep.node p a hp
    obtain ⟨n, hn, rfl⟩ : ∃ n, t.heap.node a = some n ∧ fixLen n = n' := by
      simp only [fixT, fixHeap, Option.map_eq_some_iff] at h1
      exact h1
    rw [fixLen_kind] at h2
    by_cases hk : n.kind = .branch
    · have hf : fixLen n = { n with len := n.len + 1 } := by unfold fixLen; rw [if_pos hk]
      rw [hf] at h3
      have hl := h3.len_eq
      simp only at hl
      refine ⟨n, [], hn, h2, ⟨h3.bits, ?_, by simp; omega, ?_, h3.cap_eq, h3.cap_le, by simp, ?_⟩, ?_⟩
      · have ht := h3.take
        simp only at ht
        have : n.cells.take n.len = (n.cells.take (n.len + 1)).take n.len := by
          rw [List.take_take, Nat.min_eq_left (by omega)]
        rw [this, ht, List.append_nil, List.take_left' (by omega)]
      · have := h3.le
        simp only at this; omega
      · have := h3.le
        simp only at this; omega
      · intro ht
        rw [hk] at h2
        unfold kindOf at h2
        rw [if_neg ht] at h2; cases h2
    · have hf : fixLen n = n := by unfold fixLen; rw [if_neg hk]
      rw [hf] at h3
      exact ⟨n, [sent D p], hn, h2, ⟨h3.bits, h3.take, h3.len_eq, h3.le, h3.cap_eq, h3.cap_le, by simp,
        Nat.le_trans (by rw [h3.len_eq]; omega) h3.le⟩, fun _ => rfl⟩
  · intro a n hn
    exact S.tree.rep.cover a (fixLen n) (by simp [fixT, fixHeap, hn])
  · intro a ha
    have := S.tree.rep.fresh a ha
    simpa [fixT, fixHeap] using this

end Hibit.Dense.Weak
