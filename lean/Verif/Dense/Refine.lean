import Verif.Dense.Insert
/-!
# DenseTree refines a finite map: `default`, `get`, `insert`, `get_or_insert`
-/
namespace Hibit.Dense
open Hibit

/-- The data and key vectors agree with the data indices `K`. -/
structure DInv {α : Type} (K : List Nat → Option Nat) (data : List (Option α))
    (keys : List Nat) : Prop where
  len : keys.length = data.length
  bound : data.length ≤ 2 ^ 32
  key0 : keys[0]? = some (usizeMod - 1)
  data0 : data[0]? = some none
  keyOf : ∀ P d, K P = some d → 1 ≤ d ∧ keys[d]? = some (unpath 64 P)
  surj : ∀ d, 1 ≤ d → d < keys.length → ∃ P, K P = some d
  init : ∀ d, 1 ≤ d → d < data.length → ∃ v, data[d]? = some (some v)

/-- The representation invariant with its ghost state. -/
structure DS {α : Type} (ex : List Nat → Prop) (D : Nat) (t : DT α) (M : Nat → Option α)
    (loc K : List Nat → Option Nat) : Prop where
  tree : TInv D t.heap t.root loc K
  exact : Exact ex loc (cellsOf D loc K)
  data : DInv K t.data t.keys
  den : ∀ k, M k = if k < 64 ^ D then (K (path 64 D k)).bind fun d => (t.data[d]?).join else none

/-- `t` represents the finite map `M`. -/
def DRep {α : Type} (ex : List Nat → Prop) (D : Nat) (t : DT α) (M : Nat → Option α) : Prop := ∃ loc K, DS ex D t M loc K

theorem validCfg {D : Nat} (h1 : 1 ≤ D) (h9 : D ≤ 9) : ValidCfg 1 D where
  words := .inl rfl
  depth := h1
  fits := by
    have : width 1 ^ D ≤ width 1 ^ 9 := Nat.pow_le_pow_right (by decide) h9
    exact Nat.le_trans this (by decide)

theorem pow_lt_usize {D : Nat} (h9 : D ≤ 9) : 64 ^ D < usizeMod - 1 := by
  have : 64 ^ D ≤ 64 ^ 9 := Nat.pow_le_pow_right (by decide) h9
  have : 64 ^ 9 < usizeMod - 1 := by decide
  omega

theorem indexFrom_ok {D k : Nat} (h9 : D ≤ 9) : indexFrom 1 D k =
    if k < 64 ^ D then .ok k else .error .panic := by
  unfold indexFrom saturatingPow
  have := pow_lt_usize h9
  have e : width 1 = 64 := rfl
  simp only [e]
  rw [Nat.min_eq_left (by omega)]

theorem levelIndices_ok {D k : Nat} (h1 : 1 ≤ D) (h9 : D ≤ 9) :
    levelIndices 1 D k = .ok (path 64 D k) := levelIndices_eq (validCfg h1 h9) k

theorem validPath_path {D k : Nat} (hk : k < 64 ^ D) : ValidPath 64 (path 64 D k) :=
  path_lt D hk

/-! ## default -/

theorem default_rep (α : Type) {D : Nat} (h1 : 1 ≤ D) (h9 : D ≤ 9) :
    ∃ t, default α D = .ok t ∧ DRep AllNodes D t (fun _ => none) := by
  have H0 : HRep D ⟨fun _ => none, 0⟩ (fun _ => none) (fun _ _ => none) :=
    ⟨fun _ _ h => (by cases h), fun _ _ _ h => (by cases h), fun _ _ h => (by cases h), fun _ _ => rfl⟩
  obtain ⟨h', e1, H1⟩ := H0.new (p := []) rfl
  refine ⟨⟨h', .heap 0, [none], [usizeMod - 1]⟩, ?_, upd (fun _ => none) [] (some 0),
    fun _ => none, ?_, ?_, ?_, ?_⟩
  · unfold default
    unfold kindOf sent at e1
    by_cases hD : D = 1
    · subst hD
      simp only [List.length_nil, Nat.zero_add, Nat.lt_irrefl, if_false] at e1
      simp only [if_true, e1, bind_ok, pure_eq_ok]
    · rw [if_pos (by simp; omega), if_pos (by simp; omega)] at e1
      unfold emptyNode
      simp only [hD, if_false]
      rw [if_pos (by omega)]
      simp only [bind_ok]
      simp only [List.length_nil, Nat.zero_add] at e1
      rw [e1]
      rfl
  · refine ⟨H1.congr ?_, ⟨0, by simp, rfl⟩, ?_, ?_, fun _ _ h => (by cases h), fun _ _ _ h => (by cases h)⟩
    · intro p a hp i _
      by_cases e : p = []
      · subst e
        rw [upd_same]
        unfold cellsOf
        split
        · simp [upd]
        · rfl
      · rw [upd_ne _ _ e] at hp; cases hp
    · intro p a hp
      by_cases e : p = []
      · subst e; exact ⟨ValidPath.nil, by simp; omega⟩
      · rw [upd_ne _ _ e] at hp; cases hp
    · intro p i a hp
      rw [upd_ne _ _ (by simp)] at hp; cases hp
  · intro _ p a hp hne
    rw [upd_ne _ _ hne] at hp; cases hp
  · refine ⟨rfl, (by show 1 ≤ 2 ^ 32; decide), rfl, rfl, fun _ _ h => (by cases h), ?_, ?_⟩
    · intro d g1 g2; simp at g2; omega
    · intro d g1 g2; simp at g2; omega
  · intro k; simp

/-! ## get -/

variable {α : Type} {ex : List Nat → Prop} {D : Nat} {t : DT α} {M : Nat → Option α} {loc K : List Nat → Option Nat}

theorem DInv.value {data : List (Option α)} {keys : List Nat} (H : DInv K data keys)
    {P : List Nat} {d : Nat} (h : K P = some d) :
    d < data.length ∧ ∃ v, data[d]? = some (some v) := by
  obtain ⟨g1, g2⟩ := H.keyOf P d h
  have : d < keys.length := by
    obtain ⟨hn, _⟩ := List.getElem?_eq_some_iff.1 g2; exact hn
  rw [H.len] at this
  exact ⟨this, H.init d g1 this⟩

theorem DS.den_path (S : DS ex D t M loc K) {P : List Nat} (hP : ValidPath 64 P)
    (hl : P.length = D) : M (unpath 64 P) = (K P).bind fun d => (t.data[d]?).join := by
  have hlt : unpath 64 P < 64 ^ D := by rw [← hl]; exact unpath_lt hP
  rw [S.den, if_pos hlt]
  have := path_unpath hP
  rw [hl] at this
  rw [this]

/-- The data index found by an unchecked walk towards an absent key is another key's. -/
theorem DS.wrong_key (S : DS ex D t M loc K) (h9 : D ≤ 9) {P : List Nat}
    (hP : ValidPath 64 P) (hl : P.length = D) (hK : K P = none) {d : Nat}
    (hd : d = 0 ∨ ∃ Q, K Q = some d) :
    ∃ key, t.keys[d]? = some key ∧ key ≠ unpath 64 P := by
  rcases hd with rfl | ⟨Q, hQ⟩
  · refine ⟨_, S.data.key0, ?_⟩
    have : unpath 64 P < 64 ^ D := by rw [← hl]; exact unpath_lt hP
    have := pow_lt_usize h9
    omega
  · refine ⟨_, (S.data.keyOf Q d hQ).2, ?_⟩
    intro e
    obtain ⟨hQv, hQl⟩ := S.tree.kvalid Q d hQ
    have e1 := path_unpath hQv
    have e2 := path_unpath hP
    rw [hQl] at e1
    rw [hl] at e2
    rw [e, e2] at e1
    rw [e1] at hK
    rw [hK] at hQ; cases hQ

theorem DS.treeData_eq (S : DS ex D t M loc K) (h1 : 1 ≤ D) (h9 : D ≤ 9) {P : List Nat}
    (hP : ValidPath 64 P) (hl : P.length = D) :
    treeData D t (unpath 64 P) P = .ok (M (unpath 64 P)) := by
  rw [S.den_path hP hl]
  cases hK : K P with
  | some d =>
    rcases eq_nil_or_append P with rfl | ⟨p, i, rfl⟩
    · simp at hl; omega
    obtain ⟨a, ha⟩ := S.tree.klive _ _ _ hK
    have hpl : p.length + 1 = D := by simpa using hl
    have e1 := S.tree.terminal_live h1 (i := i) ha hpl
    obtain ⟨g1, v, g2⟩ := S.data.value hK
    unfold treeData
    simp only [e1, bind_ok, S.tree.idx ha hK, Cell.asIdx, getU_some (S.data.keyOf _ _ hK).2,
      if_true, getU_some g2, unwrapU, pure_eq_ok, Option.bind_some, g2]
    rfl
  | none =>
    obtain ⟨q, i, e1, e2, e3⟩ := S.tree.terminal_any h9 h1 hP hl
    obtain ⟨d, e4, e5⟩ := S.tree.wpos_idx h9 h1 e2 e3
    obtain ⟨key, e6, e7⟩ := S.wrong_key h9 hP hl hK e5
    unfold treeData
    simp only [e1, bind_ok, e4, Cell.asIdx, getU_some e6, if_neg e7, pure_eq_ok, Option.bind_none]

theorem get_spec (R : DRep ex D t M) (h1 : 1 ≤ D) (h9 : D ≤ 9) {k : Nat} (hk : k < 64 ^ D) :
    (impl α D).get t k = .ok (M k) := by
  obtain ⟨loc, K, S⟩ := R
  have hp := validPath_path hk
  have := S.treeData_eq h1 h9 hp (path_length 64 D k)
  rw [unpath_path 64 D k hk] at this
  unfold Impl.get
  show (do let index ← indexFrom 1 D k; let indices ← levelIndices 1 D index; treeData D t index indices) = _
  rw [indexFrom_ok h9, if_pos hk]
  simp only [bind_ok]
  rw [levelIndices_ok h1 h9]
  simpa using this

/-! ## insert -/

/-- Exactness after a descent that created the path to `P`. -/
theorem exact_after {loc' K' : List Nat → Option Nat} {h : Heap} {root : Ptr}
    (h1 : 1 ≤ D) (E : Exact ex loc (cellsOf D loc K)) (T : TInv D h root loc' K') {P : List Nat}
    (hP : ValidPath 64 P)
    (hPD : P.length = D) {b : Nat} (hb : loc' (P.take (D - 1)) = some b)
    (hl : ∀ r, (∀ k, 1 ≤ k → k ≤ D - 1 → r ≠ P.take k) → (loc' r).isSome = (loc r).isSome)
    (hK : ∀ Q, (K Q).isSome → (K' Q).isSome) (hKP : (K' P).isSome) :
    Exact ex loc' (cellsOf D loc' K') := by
  have hlive : ∀ k, k ≤ D - 1 → ∃ b, loc' (P.take k) = some b := by
    intro k hk
    obtain ⟨c, hc⟩ := T.take_live _ rfl hb k
    rw [List.take_take, Nat.min_eq_left hk] at hc
    exact ⟨c, hc⟩
  intro r a hex hr hne
  by_cases hpath : ∃ k, 1 ≤ k ∧ k ≤ D - 1 ∧ r = P.take k
  · obtain ⟨k, g1, g2, rfl⟩ := hpath
    have hlt : k < P.length := by omega
    have hget : P[k]? = some P[k] := List.getElem?_eq_getElem hlt
    refine ⟨P[k], hP _ (List.getElem_mem _), ?_⟩
    have hkl : (P.take k).length = k := by simp; omega
    have htk := take_succ_of_getElem? hget
    by_cases hk : k + 1 < D
    · rw [cellsOf_branch (by omega), ← htk]
      obtain ⟨c, hc⟩ := hlive (k + 1) (by omega)
      rw [hc]; simp
    · rw [cellsOf_term (by omega), ← htk, List.take_of_length_le (by omega)]
      obtain ⟨d, hd⟩ := Option.isSome_iff_exists.1 hKP
      rw [hd]; simp
  · have hnp : ∀ k, 1 ≤ k → k ≤ D - 1 → r ≠ P.take k := fun k g1 g2 e => hpath ⟨k, g1, g2, e⟩
    have := hl r hnp
    rw [hr] at this
    obtain ⟨c, hc⟩ := Option.isSome_iff_exists.1 this.symm
    obtain ⟨i, hi, hF⟩ := E r c hex hc hne
    refine ⟨i, hi, ?_⟩
    unfold cellsOf at hF ⊢
    by_cases hb : r.length + 1 < D
    · rw [if_pos hb] at hF ⊢
      by_cases hp2 : ∃ k, 1 ≤ k ∧ k ≤ D - 1 ∧ r ++ [i] = P.take k
      · obtain ⟨k, g1, g2, e⟩ := hp2
        obtain ⟨c, hc⟩ := hlive k g2
        rw [e, hc]; simp
      · have h2 := hl (r ++ [i]) (fun k g1 g2 e => hp2 ⟨k, g1, g2, e⟩)
        cases e : loc (r ++ [i]) with
        | none => rw [e] at hF; simp at hF
        | some x =>
          rw [e] at h2
          obtain ⟨y, hy⟩ := Option.isSome_iff_exists.1 h2
          rw [hy]; simp
    · rw [if_neg hb] at hF ⊢
      cases e : K (r ++ [i]) with
      | none => rw [e] at hF; simp at hF
      | some x =>
        obtain ⟨y, hy⟩ := Option.isSome_iff_exists.1 (hK (r ++ [i]) (by rw [e]; rfl))
        rw [hy]; simp

/-- Insertion of a data index into a terminal node. -/
theorem insertTerm_spec {w : Walk} (H : TInv D w.heap w.root loc K)
    {p : List Nat} {i a : Nat} (hP : ValidPath 64 (p ++ [i])) (hp : p.length + 1 = D)
    (ha : loc p = some a) (hs : SlotAt loc (cellsOf D loc K) w.slot p)
    (hK : K (p ++ [i]) = none) (d : Nat) :
    ∃ h' x a' w', nodeInsert w.heap .term (.heap a) i (.idx d) = .ok (h', x, a') ∧
      { w with heap := h' }.write (.heap a') = .ok w' ∧
      TInv D w'.heap w'.root (upd loc p (some a')) (upd K (p ++ [i]) (some d)) := by
  obtain ⟨hpv, hi⟩ := ValidPath.of_append hP
  have hF : cellsOf D loc K p i = none := by rw [cellsOf_term hp, hK]; rfl
  have hkind : kindOf D p = .term := by unfold kindOf; rw [if_neg (by omega)]
  obtain ⟨h', a', e1, H1⟩ := H.rep.insert ha hi hF (.idx d)
  rw [hkind] at e1
  have hq : ∀ q j, p = q ++ [j] → q ≠ p := by
    intro q j e e'; rw [e'] at e; exact append_ne_self _ _ e.symm
  obtain ⟨w', e2, -, e4, H2⟩ := write_slot (root := w.root) (slot := w.slot) (a := a') H1 hpv (by omega) (by
    revert hs
    cases w.slot with
    | root => exact id
    | cell b d =>
      rintro ⟨q, j, e, hb', rfl⟩
      exact ⟨q, j, e, by rw [upd_ne _ _ (hq q j e)]; exact hb', by rw [upd_ne _ _ (hq q j e)]⟩) (by
      intro q j e
      rw [upd_ne _ _ (hq q j e), cellsOf_branch (by rw [e] at hp; simp at hp; omega), ← e, ha]
      simp)
  refine ⟨h', _, a', w', e1, e2, H2.congr ?_, ?_, ?_, ?_, ?_, ?_⟩
  · intro r b hr k hk
    by_cases e : r ++ [k] = p
    · rw [if_pos e, cellsOf_branch (by rw [← e] at hp; simp at hp; omega), e, upd_same]; rfl
    · rw [if_neg e]
      by_cases er : r = p
      · subst er
        rw [upd_same, cellsOf_term hp]
        by_cases ek : k = i
        · subst ek; simp
        · rw [upd_ne _ _ ek, upd_ne _ _ (by rw [Ne, append_singleton_inj]; simp [ek]),
            cellsOf_term hp]
      · rw [upd_ne _ _ er]
        unfold cellsOf
        split
        · rw [upd_ne _ _ e]
        · rw [upd_ne _ _ (by rw [Ne, append_singleton_inj]; simp [er])]
  · rw [e4]
    by_cases e : p = []
    · subst e; exact ⟨a', by simp, by simp⟩
    · rw [if_neg e, upd_ne _ _ (Ne.symm e)]
      exact H.root
  · intro r b hr
    by_cases er : r = p
    · subst er; exact ⟨hpv, by omega⟩
    · rw [upd_ne _ _ er] at hr; exact H.valid r b hr
  · intro r k b hr
    by_cases er : r = p
    · subst er; exact ⟨a', by simp⟩
    · rw [upd_ne _ _ er]
      by_cases ek : r ++ [k] = p
      · rw [← ek] at ha; exact H.closed _ _ _ ha
      · rw [upd_ne _ _ ek] at hr; exact H.closed _ _ _ hr
  · intro Q x hQ
    by_cases e : Q = p ++ [i]
    · subst e; exact ⟨hP, by simp [hp]⟩
    · rw [upd_ne _ _ e] at hQ; exact H.kvalid _ _ hQ
  · intro r k x hr
    by_cases er : r = p
    · subst er; exact ⟨a', by simp⟩
    · rw [upd_ne _ _ er]
      rw [upd_ne _ _ (by rw [Ne, append_singleton_inj]; simp [er])] at hr
      exact H.klive _ _ _ hr

theorem getElem?_append_single {β : Type} (l : List β) (x : β) (d : Nat) :
    (l ++ [x])[d]? = if d = l.length then some x else l[d]? := by
  by_cases h : d = l.length
  · subst h; simp
  · rw [if_neg h]
    rcases Nat.lt_or_gt_of_ne h with h' | h'
    · rw [List.getElem?_append_left h']
    · rw [List.getElem?_append_right (by omega), List.getElem?_eq_none (by simp; omega),
        List.getElem?_eq_none (by omega)]

/-- What `get_or_insert_impl` does to the represented map. -/
theorem getOrInsertImpl_spec (R : DRep ex D t M) (h1 : 1 ≤ D) (h9 : D ≤ 9) {k : Nat}
    (hk : k < 64 ^ D) (ins : Bool) (v : α) (hroom : M k = none → t.data.length < 2 ^ 32) :
    ∃ out, getOrInsertImpl D t k ins v = .ok out ∧
      DRep ex D out.tree (upd M k (some (if ins then v else (M k).getD v))) ∧
      out.tree.data[out.dataIndex]? = some (some (if ins then v else (M k).getD v)) ∧
      out.dropped = (if ins then (M k).toList else []) ∧
      out.called = (ins || (M k).isNone) ∧
      out.tree.data.length = t.data.length + (if (M k).isNone then 1 else 0) := by
  obtain ⟨loc, K, S⟩ := R
  have hPv := validPath_path hk
  have hPl := path_length 64 D k
  have hden := S.den_path hPv hPl
  rw [unpath_path 64 D k hk] at hden
  obtain ⟨w, loc', b, e1, T1, hb, hs, hl⟩ := insertWalk_spec S.tree h9 h1 hPv hPl
  have hupath := unpath_path 64 D k hk
  have hpinj : ∀ k', k' < 64 ^ D → (path 64 D k' = path 64 D k ↔ k' = k) :=
    fun k' hk' => ⟨fun e => path_injOn hk' hk e, fun e => by rw [e]⟩
  generalize path 64 D k = P at *
  rcases eq_nil_or_append P with rfl | ⟨p, i, rfl⟩
  · simp at hPl; omega
  have hpl : p.length + 1 = D := by simpa using hPl
  have htk : (p ++ [i]).take (D - 1) = p := by
    rw [List.take_append_of_le_length (by omega), List.take_of_length_le (by omega)]
  have hlev : levelIndices 1 D k = .ok (p ++ [i]) := by
    rw [levelIndices_ok h1 h9, (hpinj k hk).2 rfl]
  have hp2 := hb
  rw [htk] at hp2 hs
  have hread := read_slot T1 hp2 hs
  have hlast : (p ++ [i]).getLast? = some i := by simp
  obtain ⟨hpv, hi⟩ := ValidPath.of_append hPv
  obtain ⟨n, hd, -, -, -, hrep⟩ := T1.rep.deref hp2
  have hc := hrep.contains hi
  rw [cellsOf_term hpl] at hc
  cases hK : K (p ++ [i]) with
  | some d =>
    obtain ⟨g1, ov, g2⟩ := S.data.value hK
    have hM : M k = some ov := by rw [hden, hK]; simp [g2]
    rw [hK] at hc
    simp only [Option.map_some, Option.isSome_some] at hc
    have hidx := T1.idx hp2 hK
    have E := exact_after h1 S.exact T1 hPv hPl hb hl (fun _ h => h) (by rw [hK]; rfl)
    cases ins with
    | true =>
      refine ⟨⟨⟨w.heap, w.root, t.data.set d (some v), t.keys⟩, d, [ov], true⟩, ?_, ?_, ?_, ?_,
        rfl, ?_⟩
      · unfold getOrInsertImpl
        simp only [hlev, bind_ok, e1, hread, hlast, unwrapU, hd, hc, if_true, hidx, Cell.asIdx,
          getU_some g2, setU_ok _ g1, pure_eq_ok]
      · refine ⟨loc', K, T1, E, ⟨?_, ?_, S.data.key0, ?_, S.data.keyOf, S.data.surj, ?_⟩, ?_⟩
        · simp [S.data.len]
        · simpa using S.data.bound
        · have := (S.data.keyOf _ _ hK).1
          rw [List.getElem?_set_ne (by omega)]; exact S.data.data0
        · intro d' q1 q2
          by_cases e : d' = d
          · subst e; exact ⟨v, by simp [g1]⟩
          · simp only at q2 ⊢
            rw [List.getElem?_set_ne (by omega)]
            exact S.data.init d' q1 (by simpa using q2)
        · intro k'
          by_cases e : k' = k
          · subst e
            rw [upd_same, if_pos hk, (hpinj _ hk).2 rfl, hK]
            simp [g1]
          · rw [upd_ne _ _ e, S.den]
            by_cases hk' : k' < 64 ^ D
            · rw [if_pos hk', if_pos hk']
              cases hK' : K (path 64 D k') with
              | none => rfl
              | some d' =>
                have : d ≠ d' := by
                  intro e'
                  subst e'
                  have a1 := (S.data.keyOf _ _ hK).2
                  have a2 := (S.data.keyOf _ _ hK').2
                  rw [a1, hupath, unpath_path 64 D k' hk'] at a2
                  simp at a2; exact e a2.symm
                simp only [Option.bind_some]
                rw [List.getElem?_set_ne this]
            · rw [if_neg hk', if_neg hk']
      · simp [g1]
      · simp [hM]
      · simp [hM]
    | false =>
      refine ⟨⟨⟨w.heap, w.root, t.data, t.keys⟩, d, [], false⟩, ?_, ?_, ?_, ?_, ?_, ?_⟩
      · unfold getOrInsertImpl
        simp only [hlev, bind_ok, e1, hread, hlast, unwrapU, hd, hc, if_true, hidx, Cell.asIdx,
          getU_some g2, pure_eq_ok, Bool.false_eq_true, if_false]
      · refine ⟨loc', K, T1, E, S.data, ?_⟩
        have : upd M k (some (if false = true then v else (M k).getD v)) = M := by
          funext x
          by_cases e : x = k
          · subst e; simp [hM]
          · rw [upd_ne _ _ e]
        rw [this]
        exact S.den
      · simp [hM, g2]
      · rfl
      · simp [hM]
      · simp [hM]
  | none =>
    have hM : M k = none := by rw [hden, hK]; rfl
    have hroom := hroom hM
    rw [hK] at hc
    simp only [Option.map_none, Option.isSome_none] at hc
    obtain ⟨h', x, a', w', e2, e3, T2⟩ := insertTerm_spec T1 hPv hpl hp2 hs hK
      (t.data.length % 2 ^ 32)
    rw [Nat.mod_eq_of_lt hroom] at e2 T2
    have hval : (if ins = true then v else (M k).getD v) = v := by rw [hM]; cases ins <;> rfl
    have E : Exact ex (upd loc' p (some a')) (cellsOf D (upd loc' p (some a'))
        (upd K (p ++ [i]) (some t.data.length))) := by
      refine exact_after h1 S.exact T2 hPv hPl (b := a') (by rw [htk]; simp) ?_ ?_ (by simp)
      · intro r hr
        by_cases e : r = p
        · subst e
          rw [upd_same]
          by_cases e' : D - 1 = 0
          · have hr0 : r = [] := List.length_eq_zero_iff.1 (by omega)
            obtain ⟨a0, ha0, _⟩ := S.tree.root
            rw [hr0, ha0]; rfl
          · exact absurd htk.symm (hr (D - 1) (by omega) (Nat.le_refl _))
        · rw [upd_ne _ _ e]; exact hl r hr
      · intro Q hQ
        by_cases e : Q = p ++ [i]
        · subst e; simp
        · rw [upd_ne _ _ e]; exact hQ
    have hlen1 : 1 ≤ t.data.length := by
      obtain ⟨hn, _⟩ := List.getElem?_eq_some_iff.1 S.data.data0; omega
    refine ⟨⟨⟨w'.heap, w'.root, t.data ++ [some v], t.keys ++ [k]⟩, t.data.length, [], true⟩,
      ?_, ?_, ?_, ?_, ?_, ?_⟩
    · unfold getOrInsertImpl
      simp only [hlev, bind_ok, e1, hread, hlast, unwrapU, hd, hc, Bool.false_eq_true, if_false,
        Nat.mod_eq_of_lt hroom, e2, e3, pure_eq_ok]
    · rw [hval]
      refine ⟨_, _, T2, E, ⟨?_, ?_, ?_, ?_, ?_, ?_, ?_⟩, ?_⟩
      · simp [S.data.len]
      · simp; omega
      · rw [getElem?_append_single, S.data.len, if_neg (by omega)]; exact S.data.key0
      · rw [getElem?_append_single, if_neg (by omega)]; exact S.data.data0
      · intro Q d hQ
        by_cases e : Q = p ++ [i]
        · subst e
          simp only [upd_same, Option.some.injEq] at hQ
          subst hQ
          refine ⟨hlen1, ?_⟩
          rw [getElem?_append_single, S.data.len, if_pos rfl, hupath]
        · rw [upd_ne _ _ e] at hQ
          have := S.data.value hQ
          refine ⟨(S.data.keyOf Q d hQ).1, ?_⟩
          rw [getElem?_append_single, S.data.len, if_neg (by omega)]
          exact (S.data.keyOf Q d hQ).2
      · intro d q1 q2
        simp only [List.length_append, List.length_singleton, S.data.len] at q2
        by_cases e : d = t.data.length
        · exact ⟨p ++ [i], by simp [e]⟩
        · obtain ⟨Q, hQ⟩ := S.data.surj d q1 (by rw [S.data.len]; omega)
          refine ⟨Q, ?_⟩
          rw [upd_ne _ _ (by intro e'; rw [e', hK] at hQ; cases hQ)]; exact hQ
      · intro d q1 q2
        simp only [List.length_append, List.length_singleton] at q2
        rw [getElem?_append_single]
        by_cases e : d = t.data.length
        · rw [if_pos e]; exact ⟨v, rfl⟩
        · rw [if_neg e]; exact S.data.init d q1 (by omega)
      · intro k'
        by_cases e : k' = k
        · subst e
          rw [upd_same, if_pos hk, (hpinj _ hk).2 rfl, upd_same]
          simp
        · rw [upd_ne _ _ e, S.den]
          by_cases hk' : k' < 64 ^ D
          · rw [if_pos hk', if_pos hk', upd_ne _ _ (fun e' => e ((hpinj k' hk').1 e'))]
            cases hK' : K (path 64 D k') with
            | none => rfl
            | some d' =>
              have := S.data.value hK'
              simp only [Option.bind_some]
              rw [getElem?_append_single, if_neg (by omega)]
          · rw [if_neg hk', if_neg hk']
    · rw [hval]; simp
    · simp [hM]
    · simp [hM]
    · simp [hM]

end Hibit.Dense
