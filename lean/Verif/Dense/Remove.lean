import Verif.Dense.Refine
/-!
# DenseTree refines a finite map: `remove`
-/
namespace Hibit.Dense
open Hibit

variable {α : Type} {ex : List Nat → Prop} {D : Nat} {h : Heap} {root : Ptr} {loc K : List Nat → Option Nat}

theorem take_eq_append {P r : List Nat} {j n : Nat} (hn : n + 1 ≤ P.length)
    (e : P.take (n + 1) = r ++ [j]) : r = P.take n ∧ P[n]? = some j := by
  have hget : P[n]? = some P[n] := List.getElem?_eq_getElem (by omega)
  rw [take_succ_of_getElem? hget, append_singleton_inj] at e
  exact ⟨e.1.symm, by rw [hget, e.2]⟩

theorem climbStep_eq {branch : List Ptr} {P : List Nat} {N : Nat} {node : Ptr}
    (hnode : (if N = 0 then Except.ok root else getP branch (N - 1)) = .ok node) :
    climbStep root branch P h N = (do
      let i ← getP P N
      let h ← nodeRemove h .branch node i
      let n ← deref h node
      if n.len ≠ 1 then return (h, true)
      else if N ≠ 0 then
        let h ← dropNode h .branch node
        return (h, false)
      else return (h, false)) := by
  unfold climbStep
  by_cases hN : N = 0
  · rw [if_pos hN] at hnode
    cases hnode
    simp only [if_pos hN, bind_ok]
  · rw [if_neg hN] at hnode
    simp only [if_neg hN, hnode, bind_ok]

/-- dense_tree.rs:249-262: pruning upwards after the node at `P.take N` was freed. -/
theorem climb_spec {P : List Nat} (hP : ValidPath 64 P) (hPD : P.length = D)
    {branch : List Ptr} : ∀ (N : Nat), N ≤ D - 1 → ∀ (h : Heap) (loc : List Nat → Option Nat)
    (F : List Nat → Nat → Option Cell) (r : List Nat) (j : Nat),
    P.take N = r ++ [j] → TI D h root loc K F → loc (P.take N) = none →
    (∀ s a, loc s = some a → ∀ k, k < 64 → ¬ (s = r ∧ k = j) → F s k = cellsOf D loc K s k) →
    F r j ≠ none → (∃ a, loc r = some a) → Exact ex loc F →
    (∀ m, 1 ≤ m → m < N → ∃ b, loc (P.take m) = some b ∧ branch[m - 1]? = some (.heap b)) →
    ∃ h' b loc', visitList (climbStep root branch P) (List.range N).reverse h = .ok (h', b) ∧
      TInv D h' root loc' K ∧ Exact ex loc' (cellsOf D loc' K) := by
  intro N
  induction N with
  | zero => intro _ h loc F r j e; simp at e
  | succ n ih =>
    intro hN h loc F r j e H hnone hcoh hFr hlive hex hbr
    obtain ⟨hr, hj⟩ := take_eq_append (by omega) e
    obtain ⟨a, ha⟩ := hlive
    have hj64 : j < 64 := by
      obtain ⟨hlt, hjj⟩ := List.getElem?_eq_some_iff.1 hj
      rw [← hjj]; exact hP _ (List.getElem_mem hlt)
    have hrl : r.length = n := by rw [hr]; simp; omega
    have hkind : kindOf D r = .branch := by unfold kindOf; rw [if_pos (by omega)]
    have hnode : (if n = 0 then Except.ok root else getP branch (n - 1)) = .ok (.heap a) := by
      by_cases hn : n = 0
      · rw [if_pos hn]
        obtain ⟨a', h1, h2⟩ := H.root
        have : r = [] := List.length_eq_zero_iff.1 (by omega)
        rw [this, h1] at ha; cases ha
        rw [h2]
      · rw [if_neg hn]
        obtain ⟨b, h1, h2⟩ := hbr n (by omega) (by omega)
        rw [← hr, ha] at h1; cases h1
        rw [getP_some h2]
    obtain ⟨v, hv⟩ : ∃ v, F r j = some v := by
      cases e : F r j with
      | none => exact absurd e hFr
      | some v => exact ⟨v, rfl⟩
    obtain ⟨h1, e1, H1⟩ := H.rep.remove ha hj64 hv
    rw [hkind] at e1
    have hcoh1 : ∀ s a, loc s = some a → ∀ k, k < 64 →
        upd F r (upd (F r) j none) s k = cellsOf D loc K s k := by
      intro s b hs k hk
      by_cases es : s = r
      · subst es
        rw [upd_same]
        by_cases ek : k = j
        · subst ek
          rw [upd_same, cellsOf_branch (by omega), ← e, hnone]; rfl
        · rw [upd_ne _ _ ek]; exact hcoh s b hs k hk (by simp [ek])
      · rw [upd_ne _ _ es]; exact hcoh s b hs k hk (by simp [es])
    have T1 : TInv D h1 root loc K := { H with rep := H1.congr hcoh1 }
    have hexo : ∀ s a, ex s → loc s = some a → s ≠ [] → s ≠ r → ∃ i, i < 64 ∧ cellsOf D loc K s i ≠ none := by
      intro s b hx hs hne hsr
      obtain ⟨i, hi, hF⟩ := hex s b hx hs hne
      refine ⟨i, hi, ?_⟩
      rwa [← hcoh s b hs i hi (by simp [hsr])]
    obtain ⟨nd, hd, -, -, -, hrep⟩ := T1.rep.deref ha
    have hlenone := hrep.len_one
    rw [List.range_succ, List.reverse_append]
    simp only [List.reverse_cons, List.reverse_nil, List.nil_append, List.singleton_append,
      visitList]
    rw [climbStep_eq hnode]
    simp only [bind_ok, getP_some hj, e1, hd]
    by_cases hlen : nd.len = 1
    · rw [if_neg (by simp [hlen])]
      have hempty := hlenone.1 hlen
      by_cases hn : n = 0
      · rw [if_neg (by simp [hn])]
        subst hn
        simp only [pure_eq_ok, bind_ok, Bool.false_eq_true, if_false]
        refine ⟨h1, false, loc, rfl, T1, ?_⟩
        intro s b hx hs hne
        refine hexo s b hx hs hne ?_
        intro es
        rw [es] at hne
        exact hne (List.length_eq_zero_iff.1 hrl)
      · rw [if_pos hn]
        obtain ⟨h2, e2, H2⟩ := T1.rep.drop ha
        rw [hkind] at e2
        simp only [e2, bind_ok, pure_eq_ok, Bool.false_eq_true, if_false]
        have hrne : r ≠ [] := by intro e'; rw [e'] at hrl; simp at hrl; omega
        obtain ⟨r', j', er⟩ : ∃ r' j', r = r' ++ [j'] := by
          rcases eq_nil_or_append r with h | h
          · exact absurd h hrne
          · exact h
        have hr'ne : r' ≠ r := by intro e'; rw [e'] at er; exact append_ne_self _ _ er.symm
        have hr'l : r'.length + 1 = n := by rw [er] at hrl; simpa using hrl
        have hTI : TI D h2 root (upd loc r none) K (cellsOf D loc K) := by
          refine ⟨H2, ?_, ?_, ?_, T1.kvalid, ?_⟩
          · rw [upd_ne _ _ (Ne.symm hrne)]; exact T1.root
          · intro s b hs
            by_cases es : s = r
            · subst es; simp at hs
            · rw [upd_ne _ _ es] at hs; exact T1.valid s b hs
          · intro s k b hs
            have hs' : loc (s ++ [k]) = some b := by
              by_cases es : s ++ [k] = r
              · rw [es] at hs; simp at hs
              · rwa [upd_ne _ _ es] at hs
            by_cases es : s = r
            · subst es
              have hk64 := (ValidPath.of_append (T1.valid _ _ hs').1).2
              have := hempty k hk64
              rw [cellsOf_branch (by omega), hs'] at this
              simp at this
            · rw [upd_ne _ _ es]; exact T1.closed _ _ _ hs'
          · intro s k d hs
            by_cases es : s = r
            · subst es
              have := (T1.kvalid _ _ hs).2
              simp at this; omega
            · rw [upd_ne _ _ es]; exact T1.klive _ _ _ hs
        have hres := ih (by omega) h2 (upd loc r none) (cellsOf D loc K) r' j'
          (by rw [← hr, er]) hTI (by rw [← hr]; simp) (by
            intro s b hs k hk hsk
            unfold cellsOf
            split
            · rw [upd_ne]
              intro e'
              rw [er, append_singleton_inj] at e'
              exact hsk e'
            · rfl) (by
            rw [cellsOf_branch (by omega), ← er, ha]; simp) (by
            rw [upd_ne _ _ hr'ne]
            rw [er] at ha
            exact T1.closed _ _ _ ha) (by
            intro s b hx hs hne
            by_cases es : s = r
            · subst es; simp at hs
            · rw [upd_ne _ _ es] at hs; exact hexo s b hx hs hne es) (by
            intro m hm1 hm2
            obtain ⟨b, g1, g2⟩ := hbr m hm1 (by omega)
            refine ⟨b, ?_, g2⟩
            rw [upd_ne]
            · exact g1
            · intro e'
              have := congrArg List.length e'
              simp [hrl] at this
              omega)
        exact hres
    · rw [if_pos hlen]
      simp only [pure_eq_ok, bind_ok, if_true]
      refine ⟨h1, true, loc, rfl, T1, ?_⟩
      intro s b hx hs hne
      by_cases es : s = r
      · subst es
        apply Classical.byContradiction
        intro hcon
        apply hlen
        rw [hlenone]
        intro i hi
        apply Classical.byContradiction
        intro hc
        exact hcon ⟨i, hi, hc⟩
      · exact hexo s b hx hs hne es

/-- dense_tree.rs:241-264. -/
theorem removeCell_spec {t : DT α} (T : TInv D t.heap t.root loc K)
    (E : Exact ex loc (cellsOf D loc K)) (hD2 : 2 ≤ D) (h9 : D ≤ 9) {p : List Nat} {i a d : Nat}
    (hP : ValidPath 64 (p ++ [i])) (hp : p.length + 1 = D) (ha : loc p = some a)
    (hK : K (p ++ [i]) = some d) {branch : List Ptr}
    (hbr : ∀ m, 1 ≤ m → m < D - 1 →
      ∃ b, loc ((p ++ [i]).take m) = some b ∧ branch[m - 1]? = some (.heap b)) :
    ∃ h' loc', removeCell D t (p ++ [i]) branch (.heap a) i = .ok h' ∧
      TInv D h' t.root loc' (upd K (p ++ [i]) none) ∧
      Exact ex loc' (cellsOf D loc' (upd K (p ++ [i]) none)) := by
  obtain ⟨hpv, hi⟩ := ValidPath.of_append hP
  have hkind : kindOf D p = .term := by unfold kindOf; rw [if_neg (by omega)]
  obtain ⟨h1, e1, H1⟩ := T.rep.remove ha hi (v := .idx d) (by rw [cellsOf_term hp, hK]; rfl)
  rw [hkind] at e1
  have hcoh : ∀ s a, loc s = some a → ∀ k, k < 64 →
      upd (cellsOf D loc K) p (upd (cellsOf D loc K p) i none) s k =
        cellsOf D loc (upd K (p ++ [i]) none) s k := by
    intro s b hs k hk
    by_cases es : s = p
    · subst es
      rw [upd_same, cellsOf_term hp]
      by_cases ek : k = i
      · subst ek; simp
      · rw [upd_ne _ _ ek, upd_ne _ _ (by rw [Ne, append_singleton_inj]; simp [ek]),
          cellsOf_term hp]
    · rw [upd_ne _ _ es]
      unfold cellsOf
      split
      · rfl
      · rw [upd_ne _ _ (by rw [Ne, append_singleton_inj]; simp [es])]
  have T1 : TInv D h1 t.root loc (upd K (p ++ [i]) none) := by
    refine ⟨H1.congr hcoh, T.root, T.valid, T.closed, ?_, ?_⟩
    · intro Q x hQ
      by_cases e : Q = p ++ [i]
      · subst e; simp at hQ
      · rw [upd_ne _ _ e] at hQ; exact T.kvalid _ _ hQ
    · intro s k x hQ
      by_cases e : s ++ [k] = p ++ [i]
      · rw [e] at hQ; simp at hQ
      · rw [upd_ne _ _ e] at hQ; exact T.klive _ _ _ hQ
  generalize hK' : upd K (p ++ [i]) none = K' at *
  have hexo : ∀ s a, ex s → loc s = some a → s ≠ [] → s ≠ p → ∃ i, i < 64 ∧ cellsOf D loc K' s i ≠ none := by
    intro s b hx hs hne hsp
    obtain ⟨k, hk, hF⟩ := E s b hx hs hne
    refine ⟨k, hk, ?_⟩
    rw [← hcoh s b hs k hk, upd_ne _ _ hsp]; exact hF
  obtain ⟨nd, hd, -, -, -, hrep⟩ := T1.rep.deref ha
  have hlenone := hrep.len_one
  unfold removeCell
  simp only [e1, bind_ok, hd]
  by_cases hlen : nd.len = 1
  · rw [if_pos hlen]
    have hempty := hlenone.1 hlen
    obtain ⟨h2, e2, H2⟩ := T1.rep.drop ha
    rw [hkind] at e2
    simp only [e2, bind_ok]
    rw [constLoopRev_eq _ _ _ _ (by omega) (by omega)]
    have hrange : rangeFromTo 0 (D - 1) = List.range (D - 1) := by
      simp [rangeFromTo]
    rw [hrange]
    have hpne : p ≠ [] := by intro e; rw [e] at hp; simp at hp; omega
    obtain ⟨r, j, er⟩ : ∃ r j, p = r ++ [j] := by
      rcases eq_nil_or_append p with h | h
      · exact absurd h hpne
      · exact h
    have htk : (p ++ [i]).take (D - 1) = p := by
      rw [List.take_append_of_le_length (by omega), List.take_of_length_le (by omega)]
    have hrp : r ≠ p := by intro e'; rw [e'] at er; exact append_ne_self _ _ er.symm
    have hrl : r.length + 2 = D := by rw [er] at hp; simpa using hp
    have hTI : TI D h2 t.root (upd loc p none) K' (cellsOf D loc K') := by
      refine ⟨H2, ?_, ?_, ?_, T1.kvalid, ?_⟩
      · rw [upd_ne _ _ (Ne.symm hpne)]; exact T1.root
      · intro s b hs
        by_cases es : s = p
        · subst es; simp at hs
        · rw [upd_ne _ _ es] at hs; exact T1.valid s b hs
      · intro s k b hs
        have hs' : loc (s ++ [k]) = some b := by
          by_cases es : s ++ [k] = p
          · rw [es] at hs; simp at hs
          · rwa [upd_ne _ _ es] at hs
        by_cases es : s = p
        · subst es
          have := (T1.valid _ _ hs').2
          simp at this; omega
        · rw [upd_ne _ _ es]; exact T1.closed _ _ _ hs'
      · intro s k x hs
        by_cases es : s = p
        · subst es
          have hk64 := (ValidPath.of_append (T1.kvalid _ _ hs).1).2
          have := hempty k hk64
          rw [cellsOf_term hp, hs] at this
          simp at this
        · rw [upd_ne _ _ es]; exact T1.klive _ _ _ hs
    obtain ⟨h3, b, loc', e3, T3, E3⟩ := climb_spec hP (by simp [hp]) (branch := branch) (D - 1)
      (Nat.le_refl _) h2 (upd loc p none) (cellsOf D loc K') r j (by rw [htk, er]) hTI
      (by rw [htk]; simp) (by
        intro s b hs k hk hsk
        unfold cellsOf
        split
        · rw [upd_ne]
          intro e'
          rw [er, append_singleton_inj] at e'
          exact hsk e'
        · rfl) (by
        rw [cellsOf_branch (by omega), ← er, ha]; simp) (by
        rw [upd_ne _ _ hrp]
        rw [er] at ha
        exact T1.closed _ _ _ ha) (by
        intro s b hx hs hne
        by_cases es : s = p
        · subst es; simp at hs
        · rw [upd_ne _ _ es] at hs; exact hexo s b hx hs hne es) (by
        intro m hm1 hm2
        obtain ⟨b, g1, g2⟩ := hbr m hm1 hm2
        refine ⟨b, ?_, g2⟩
        rw [upd_ne]
        · exact g1
        · intro e'
          have := congrArg List.length e'
          simp at this
          omega)
    exact ⟨h3, loc', by rw [e3]; rfl, T3, E3⟩
  · rw [if_neg hlen]
    refine ⟨h1, loc, rfl, T1, ?_⟩
    intro s b hx hs hne
    by_cases es : s = p
    · subst es
      apply Classical.byContradiction
      intro hcon
      apply hlen
      rw [hlenone]
      intro i hi
      apply Classical.byContradiction
      intro hc
      exact hcon ⟨i, hi, hc⟩
    · exact hexo s b hx hs hne es

/-- Redirect the cell of a present key. -/
theorem setIdx_spec (T : TInv D h root loc K) (E : Exact ex loc (cellsOf D loc K))
    {p : List Nat} {i a x : Nat} (ha : loc p = some a) (hK : K (p ++ [i]) = some x) (d : Nat) :
    ∃ h', setChild h .term (.heap a) i (.idx d) = .ok h' ∧
      TInv D h' root loc (upd K (p ++ [i]) (some d)) ∧
      Exact ex loc (cellsOf D loc (upd K (p ++ [i]) (some d))) := by
  obtain ⟨hP, hl⟩ := T.kvalid _ _ hK
  have hp : p.length + 1 = D := by simpa using hl
  obtain ⟨hpv, hi⟩ := ValidPath.of_append hP
  obtain ⟨h', e1, H1⟩ := T.rep.setChild ha hi (v := .idx x) (by rw [cellsOf_term hp, hK]; rfl)
    (.idx d)
  have hkind : kindOf D p = .term := by unfold kindOf; rw [if_neg (by omega)]
  rw [hkind] at e1
  have hcoh : ∀ s k, upd (cellsOf D loc K) p (upd (cellsOf D loc K p) i (some (.idx d))) s k =
        cellsOf D loc (upd K (p ++ [i]) (some d)) s k := by
    intro s k
    by_cases es : s = p
    · subst es
      rw [upd_same, cellsOf_term hp]
      by_cases ek : k = i
      · subst ek; simp
      · rw [upd_ne _ _ ek, upd_ne _ _ (by rw [Ne, append_singleton_inj]; simp [ek]),
          cellsOf_term hp]
    · rw [upd_ne _ _ es]
      unfold cellsOf
      split
      · rfl
      · rw [upd_ne _ _ (by rw [Ne, append_singleton_inj]; simp [es])]
  refine ⟨h', e1, ⟨H1.congr (fun s _ _ k _ => hcoh s k), T.root, T.valid, T.closed, ?_, ?_⟩, ?_⟩
  · intro Q y hQ
    by_cases e : Q = p ++ [i]
    · subst e; exact ⟨hP, hl⟩
    · rw [upd_ne _ _ e] at hQ; exact T.kvalid _ _ hQ
  · intro s k y hQ
    by_cases e : s ++ [k] = p ++ [i]
    · rw [append_singleton_inj] at e; rw [e.1]; exact ⟨a, ha⟩
    · rw [upd_ne _ _ e] at hQ; exact T.klive _ _ _ hQ
  · intro s b hx hs hne
    obtain ⟨k, hk, hF⟩ := E s b hx hs hne
    refine ⟨k, hk, ?_⟩
    rw [← hcoh s k]
    by_cases es : s = p
    · subst es
      rw [upd_same]
      by_cases ek : k = i
      · subst ek; simp
      · rw [upd_ne _ _ ek]; exact hF
    · rw [upd_ne _ _ es]; exact hF

theorem getElem?_swap {β : Type} (l : List β) {d j : Nat} (hd : d < l.length) (x : β) :
    ((l.set d x).dropLast)[j]? = if j < l.length - 1 then (if j = d then some x else l[j]?)
      else none := by
  rw [List.getElem?_dropLast, List.length_set]
  split
  · by_cases e : j = d
    · subst e; simp [hd]
    · rw [if_neg e, List.getElem?_set_ne (by omega)]
  · rfl

theorem set_dropLast {β : Type} (l : List β) {d : Nat} (hd : d < l.length - 1) (x : β) :
    l.dropLast.set d x = (l.set d x).dropLast := by
  apply List.ext_getElem?
  intro j
  rw [getElem?_swap l (by omega)]
  by_cases e : j = d
  · subst e; rw [if_pos hd, if_pos rfl, List.getElem?_set_self (by simpa using hd)]
  · rw [List.getElem?_set_ne (by omega), if_neg e, List.getElem?_dropLast]

theorem DInv.inj {data : List (Option α)} {keys : List Nat} (H : DInv K data keys)
    (T : TInv D h root loc K) {P Q : List Nat} {d : Nat} (hP : K P = some d) (hQ : K Q = some d) :
    P = Q := by
  obtain ⟨p1, p2⟩ := T.kvalid _ _ hP
  obtain ⟨q1, q2⟩ := T.kvalid _ _ hQ
  have e1 := (H.keyOf _ _ hP).2
  have e2 := (H.keyOf _ _ hQ).2
  rw [e1] at e2
  simp only [Option.some.injEq] at e2
  have a := path_unpath p1
  have b := path_unpath q1
  rw [p2] at a; rw [q2] at b
  rw [← a, ← b, e2]

/-- The vectors after `swap_remove`. -/
theorem DInv.swap {data : List (Option α)} {keys : List Nat} (H : DInv K data keys)
    (T : TInv D h root loc K) {P : List Nat} {d : Nat} (hP : K P = some d)
    {lastKey : Nat} {lastVal : Option α} (hk : keys[keys.length - 1]? = some lastKey)
    (hv : data[data.length - 1]? = some lastVal) {K' : List Nat → Option Nat}
    (hK1 : K' P = none)
    (hK2 : ∀ Q, Q ≠ P → K Q = some (data.length - 1) → K' Q = some d)
    (hK3 : ∀ Q, Q ≠ P → K Q ≠ some (data.length - 1) → K' Q = K Q) :
    DInv K' (data.set d lastVal).dropLast (keys.set d lastKey).dropLast ∧
      ∀ Q, (K' Q).bind (fun x => (((data.set d lastVal).dropLast)[x]?).join) =
        if Q = P then none else (K Q).bind (fun x => (data[x]?).join) := by
  obtain ⟨hd, v, hdv⟩ := H.value hP
  obtain ⟨hd1, hdk⟩ := H.keyOf _ _ hP
  have hlen := H.len
  have hdl : d < keys.length := by omega
  have hlv : data.length - 1 = 0 ∨ ∃ v, lastVal = some v := by
    by_cases e : data.length - 1 = 0
    · exact .inl e
    · obtain ⟨v, hv'⟩ := H.init (data.length - 1) (by omega) (by omega)
      rw [hv] at hv'; exact .inr ⟨v, by simpa using hv'⟩
  constructor
  · constructor
    · simp [hlen]
    · have := H.bound; simp; omega
    · rw [getElem?_swap _ hdl, if_pos (by omega), if_neg (by omega)]; exact H.key0
    · rw [getElem?_swap _ hd, if_pos (by omega), if_neg (by omega)]; exact H.data0
    · intro Q x hQ
      by_cases eQ : Q = P
      · subst eQ; rw [hK1] at hQ; cases hQ
      · by_cases e : K Q = some (data.length - 1)
        · rw [hK2 Q eQ e] at hQ
          cases hQ
          refine ⟨hd1, ?_⟩
          have hne : d ≠ data.length - 1 := by
            intro e'; rw [← e'] at e; exact eQ (H.inj T e hP)
          rw [getElem?_swap _ hdl, if_pos (by omega), if_pos rfl]
          have := (H.keyOf _ _ e).2
          rw [← hlen, hk] at this
          exact this
        · rw [hK3 Q eQ e] at hQ
          obtain ⟨g1, g2⟩ := H.keyOf _ _ hQ
          have g3 := (H.value hQ).1
          refine ⟨g1, ?_⟩
          have hne : x ≠ data.length - 1 := by intro e'; rw [← e'] at e; exact e hQ
          have hne' : x ≠ d := by intro e'; rw [e'] at hQ; exact eQ (H.inj T hQ hP)
          rw [getElem?_swap _ hdl, if_pos (by omega), if_neg hne']; exact g2
    · intro x g1 g2
      simp only [List.length_dropLast, List.length_set] at g2
      by_cases e : x = d
      · subst e
        obtain ⟨Q, hQ⟩ := H.surj (data.length - 1) (by omega) (by omega)
        refine ⟨Q, hK2 Q ?_ hQ⟩
        intro e'; rw [e', hP] at hQ; simp at hQ; omega
      · obtain ⟨Q, hQ⟩ := H.surj x g1 (by omega)
        refine ⟨Q, ?_⟩
        rw [hK3 Q (by intro e'; rw [e', hP] at hQ; simp at hQ; omega)
          (by rw [hQ]; simp; omega), hQ]
    · intro x g1 g2
      simp only [List.length_dropLast, List.length_set] at g2
      rw [getElem?_swap _ hd, if_pos g2]
      by_cases e : x = d
      · rw [if_pos e]
        rcases hlv with h0 | ⟨v, rfl⟩
        · omega
        · exact ⟨v, rfl⟩
      · rw [if_neg e]; exact H.init x g1 (by omega)
  · intro Q
    by_cases eQ : Q = P
    · subst eQ; rw [hK1, if_pos rfl]; rfl
    · rw [if_neg eQ]
      by_cases e : K Q = some (data.length - 1)
      · rw [hK2 Q eQ e, e]
        have hne : d ≠ data.length - 1 := by
          intro e'; rw [← e'] at e; exact eQ (H.inj T e hP)
        simp only [Option.bind_some]
        rw [getElem?_swap _ hd, if_pos (by omega), if_pos rfl, hv]
      · rw [hK3 Q eQ e]
        cases hQ : K Q with
        | none => rfl
        | some x =>
          have g3 := (H.value hQ).1
          have hne : x ≠ data.length - 1 := by intro e'; rw [← e'] at e; exact e hQ
          have hne' : x ≠ d := by intro e'; rw [e'] at hQ; exact eQ (H.inj T hQ hP)
          simp only [Option.bind_some]
          rw [getElem?_swap _ hd, if_pos (by omega), if_neg hne']

/-- What `remove` does to the represented map. -/
theorem remove_spec {t : DT α} {M : Nat → Option α} (R : DRep ex D t M) (h2 : 2 ≤ D) (h9 : D ≤ 9)
    {k : Nat} (hk : k < 64 ^ D) :
    ∃ t', remove D t k = .ok (t', M k) ∧ DRep ex D t' (upd M k none) ∧
      t'.data.length = t.data.length - (if (M k).isSome then 1 else 0) := by
  obtain ⟨loc, K, S⟩ := R
  have h1 : 1 ≤ D := by omega
  have hPv := validPath_path hk
  have hPl := path_length 64 D k
  have hden := S.den_path hPv hPl
  have hupath := unpath_path 64 D k hk
  rw [hupath] at hden
  have hpinj : ∀ k', k' < 64 ^ D → (path 64 D k' = path 64 D k ↔ k' = k) :=
    fun k' hk' => ⟨fun e => path_injOn hk' hk e, fun e => by rw [e]⟩
  have hlev : levelIndices 1 D k = .ok (path 64 D k) := levelIndices_ok h1 h9
  generalize path 64 D k = P at *
  rcases eq_nil_or_append P with rfl | ⟨p, i, rfl⟩
  · simp at hPl; omega
  have hpl : p.length + 1 = D := by simpa using hPl
  have hmap : (List.range (D - 1)).map (· + 0) = List.range (D - 1) := by simp
  have hlast : (p ++ [i]).getLast? = some i := by simp
  obtain ⟨hpv, hi⟩ := ValidPath.of_append hPv
  cases hK : K (p ++ [i]) with
  | none =>
    have hM : M k = none := by rw [hden, hK]; rfl
    obtain ⟨qs, e1, e2, e3⟩ := S.tree.branch_any h9 hPv (D - 1) 0 t.root (by omega) (by omega)
      S.tree.wpos_root
    rw [hmap] at e1
    have hne : qs ≠ [] := by intro e; rw [e] at e2; simp at e2; omega
    have hW : WPos D loc (D - 1) (qs.getLast hne) := by
      rw [List.getLast_eq_getElem]
      have := e3 (qs.length - 1) qs[qs.length - 1] (List.getElem?_eq_getElem (by omega))
      rwa [show 0 + (qs.length - 1) + 1 = D - 1 by omega] at this
    obtain ⟨d, e4, e5⟩ := S.tree.wpos_idx h9 h1 hW hi
    obtain ⟨key, e6, e7⟩ := S.wrong_key h9 hPv hPl hK e5
    rw [hupath] at e7
    refine ⟨t, ?_, ?_, ?_⟩
    · unfold remove getBranch
      rw [indexFrom_ok h9, if_pos hk]
      simp only [bind_ok, hlev, e1, List.getLast?_eq_some_getLast hne, unwrapU, hlast, e4,
        Cell.asIdx, getU_some e6, if_neg e7, pure_eq_ok, hM]
    · have : upd M k none = M := by
        funext x
        by_cases e : x = k
        · subst e; simp [hM]
        · rw [upd_ne _ _ e]
      rw [this]
      exact ⟨loc, K, S⟩
    · simp [hM]
  | some d =>
    obtain ⟨g1, v, g2⟩ := S.data.value hK
    have hM : M k = some v := by rw [hden, hK]; simp [g2]
    obtain ⟨a, ha⟩ := S.tree.klive _ _ _ hK
    obtain ⟨r, hr, hroot⟩ := S.tree.root
    have htk : ∀ k, k ≤ p.length → (p ++ [i]).take k = p.take k :=
      fun k hk => List.take_append_of_le_length hk
    obtain ⟨qs, e1, e2, e3⟩ := S.tree.branch_live (P := p ++ [i]) (D - 1) 0 r (by simp; omega)
      (by simpa using hr) (fun k hk => by
        rw [htk k (by omega)]; exact S.tree.take_live _ rfl ha k)
    rw [hmap] at e1
    have hlastq : qs.getLast? = some (.heap a) := by
      obtain ⟨b, q1, q2⟩ := e3 (D - 1 - 1) (by omega)
      rw [show 0 + (D - 1 - 1) + 1 = p.length by omega, htk _ (Nat.le_refl _),
        List.take_length, ha] at q1
      cases q1
      rw [List.getLast?_eq_getElem?, e2]; exact q2
    obtain ⟨h', loc', e4, T4, E4⟩ := removeCell_spec S.tree S.exact h2 h9 hPv hpl ha hK
      (branch := qs) (by
        intro m hm1 hm2
        obtain ⟨b, q1, q2⟩ := e3 (m - 1) (by omega)
        refine ⟨b, ?_, q2⟩
        rw [← q1]; congr 2; omega)
    have hkey := (S.data.keyOf _ _ hK).2
    have hd1 := (S.data.keyOf _ _ hK).1
    rw [hupath] at hkey
    have hlen := S.data.len
    -- the last key
    obtain ⟨Q, hQ⟩ := S.data.surj (t.keys.length - 1) (by omega) (by omega)
    obtain ⟨hQv, hQl⟩ := S.tree.kvalid _ _ hQ
    have hQk := (S.data.keyOf _ _ hQ).2
    obtain ⟨lv, hlv⟩ := S.data.init (t.data.length - 1) (by omega) (by omega)
    have hlastkey : t.keys.getLast? = some (unpath 64 Q) := by rw [List.getLast?_eq_getElem?]; exact hQk
    have hlastval : t.data.getLast? = some (some lv) := by rw [List.getLast?_eq_getElem?]; exact hlv
    have hbase : ∀ t', (do
        let t ← removeKey D { t with heap := h' } k d
        let (v, data) ← swapRemove t.data d
        return ({ t with data := data }, some v)) = .ok (t', some v) →
        remove D t k = .ok (t', M k) := by
      intro t' ht'
      unfold remove getBranch
      rw [indexFrom_ok h9, if_pos hk]
      simp only [bind_ok, hlev, hroot, e1, hlastq, unwrapU, hlast, S.tree.idx ha hK, Cell.asIdx,
        getU_some hkey, if_true]
      rw [← hroot]
      simp only [e4, bind_ok]
      rw [hM]
      exact ht'
    have hswap : swapRemove t.data d = .ok (v, (t.data.set d (some lv)).dropLast) := by
      unfold swapRemove
      simp only [getP_some g2, bind_ok, unwrapU, hlastval, pure_eq_ok]
    have hfin : ∀ (K' : List Nat → Option Nat) (h'' : Heap) (loc' : List Nat → Option Nat),
        TInv D h'' t.root loc' K' → Exact ex loc' (cellsOf D loc' K') →
        K' (p ++ [i]) = none →
        (∀ Q, Q ≠ p ++ [i] → K Q = some (t.data.length - 1) → K' Q = some d) →
        (∀ Q, Q ≠ p ++ [i] → K Q ≠ some (t.data.length - 1) → K' Q = K Q) →
        DRep ex D ⟨h'', t.root, (t.data.set d (some lv)).dropLast,
          (t.keys.set d (unpath 64 Q)).dropLast⟩ (upd M k none) := by
      intro K' h'' loc' T' E' k1 k2 k3
      obtain ⟨DI, hval⟩ := S.data.swap S.tree hK hQk hlv k1 k2 k3
      refine ⟨loc', K', T', E', DI, ?_⟩
      intro k'
      by_cases e : k' = k
      · subst e
        rw [upd_same, if_pos hk, (hpinj _ hk).2 rfl, k1]; rfl
      · rw [upd_ne _ _ e, S.den]
        by_cases hk' : k' < 64 ^ D
        · rw [if_pos hk', if_pos hk', hval, if_neg (fun e' => e ((hpinj k' hk').1 e'))]
        · rw [if_neg hk', if_neg hk']
    by_cases hlk : unpath 64 Q = k
    · -- removing the last element
      have hQP : Q = p ++ [i] := by
        have := path_unpath hQv
        rw [hQl, hlk, (hpinj k hk).2 rfl] at this
        exact this.symm
      have hdl : d = t.keys.length - 1 := by
        rw [hQP, hK] at hQ; simpa using hQ
      have hkd : (t.keys.set d (unpath 64 Q)).dropLast = t.keys.dropLast := by
        rw [hdl]
        congr 1
        apply List.ext_getElem?
        intro j
        by_cases e : j = t.keys.length - 1
        · rw [e, List.getElem?_set_self (by omega), hQk]
        · rw [List.getElem?_set_ne (by omega)]
      refine ⟨⟨h', t.root, (t.data.set d (some lv)).dropLast, t.keys.dropLast⟩, ?_, ?_, ?_⟩
      · apply hbase
        unfold removeKey
        simp only [hlastkey, unwrapU, bind_ok, hlk, ne_eq, not_true_eq_false, if_false,
          pure_eq_ok, hswap]
      · rw [← hkd]
        refine hfin _ _ _ T4 E4 (by simp) ?_ (fun Q' hQ' _ => upd_ne _ _ hQ')
        intro Q' hne hQ'
        rw [← hlen, ← hQ] at hQ'
        rw [hQ] at hQ'
        exact absurd (S.data.inj S.tree hQ' hQ) (by rw [hQP]; exact hne)
      · simp [hM]
    · have hQP : Q ≠ p ++ [i] := by
        intro e; rw [e, hupath] at hlk; exact hlk rfl
      have hdl : d < t.keys.length - 1 := by
        have : d ≠ t.keys.length - 1 := by
          intro e; rw [← e] at hQ; exact hQP (S.data.inj S.tree hQ hK)
        omega
      rcases eq_nil_or_append Q with rfl | ⟨q, j, rfl⟩
      · simp at hQl; omega
      have hql : q.length + 1 = D := by simpa using hQl
      have hKQ : upd K (p ++ [i]) none (q ++ [j]) = some (t.keys.length - 1) := by
        rw [upd_ne _ _ hQP]; exact hQ
      obtain ⟨b, hb⟩ := T4.klive _ _ _ hKQ
      have hterm := T4.terminal_live h1 (i := j) hb hql
      obtain ⟨h'', e5, T5, E5⟩ := setIdx_spec T4 E4 hb hKQ d
      have hd32 : d % 2 ^ 32 = d := Nat.mod_eq_of_lt (by have := S.data.bound; omega)
      refine ⟨⟨h'', t.root, (t.data.set d (some lv)).dropLast,
        (t.keys.set d (unpath 64 (q ++ [j]))).dropLast⟩, ?_, ?_, ?_⟩
      · apply hbase
        unfold removeKey
        have hlevQ : levelIndices 1 D (unpath 64 (q ++ [j])) = .ok (q ++ [j]) := by
          rw [levelIndices_ok h1 h9]
          have := path_unpath hQv
          rw [hQl] at this
          rw [this]
        simp only [hlastkey, unwrapU, bind_ok, ne_eq, hlk, not_false_eq_true, if_true]
        rw [setU_ok _ (by simpa using hdl)]
        simp only [bind_ok, hlevQ, hterm, hd32, e5, pure_eq_ok, hswap]
        rw [set_dropLast _ hdl]
      · refine hfin _ _ _ T5 E5 ?_ ?_ ?_
        · rw [upd_ne _ _ (Ne.symm hQP)]; simp
        · intro Q' hne hQ'
          rw [← hlen] at hQ'
          have := S.data.inj S.tree hQ' hQ
          rw [this]; simp
        · intro Q' hne hQ'
          rw [← hlen] at hQ'
          rw [upd_ne _ _ (by intro e; rw [e] at hQ'; exact hQ' hQ), upd_ne _ _ hne]
      · simp [hM]

end Hibit.Dense
