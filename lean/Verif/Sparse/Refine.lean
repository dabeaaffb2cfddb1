import Verif.Sparse.Insert
import Verif.MapSpec
/-!
# SparseTree refines a finite map: `default`, `get`, `insert`, `get_or_insert`
-/
namespace Hibit.Sparse
open Hibit

/-- The value, key and coordinate vectors agree with the positions `B`. -/
structure ValRep {α : Type} (N D : Nat) (cap : Nat → Nat) (dflt : Option α) (t : ST α)
    (B : List Nat → Nat) : Prop where
  lenK : t.keys.length = t.values.length
  lenL : t.last.length = t.values.length
  bound : t.values.length ≤ cap D
  zero : t.values[0]? = some dflt
  keyOf : ∀ P, P.length = D → B P ≠ 0 → t.keys[B P]? = some (unpath (width N) P)
  lastOf : ∀ p i, p.length + 1 = D → B (p ++ [i]) ≠ 0 → t.last[B (p ++ [i])]? = some (B p, i)
  surj : ∀ d, 1 ≤ d → d < t.values.length → ∃ P, P.length = D ∧ B P = d
  init : ∀ d, 1 ≤ d → d < t.values.length → ∃ v, t.values[d]? = some (some v)

/-- `p` is a proper part of the path of a key in `Ph`. -/
def OnPath (N D : Nat) (Ph : List Nat) (p : List Nat) : Prop :=
  ∃ k ∈ Ph, k < width N ^ D ∧ (path (width N) D k).take p.length = p

/-- The representation invariant with its ghost state. `Ph` lists keys whose path may be present
without a value (left behind by a panic of `Data::default()`; empty otherwise). -/
structure SS {α : Type} (N D : Nat) (cap : Nat → Nat) (dflt : Option α) (Ph : List Nat) (t : ST α)
    (M : Nat → Option α) (B : List Nat → Nat) : Prop where
  lv : LvRep N D cap t.levels B none
  exact : ∀ p, p ≠ [] → p.length < D → B p ≠ 0 → (∃ i, B (p ++ [i]) ≠ 0) ∨ OnPath N D Ph p
  data : ValRep N D cap dflt t B
  den : ∀ k, M k = if k < width N ^ D then
    (if B (path (width N) D k) = 0 then none else (t.values[B (path (width N) D k)]?).join) else none

/-- `t` represents the finite map `M`; the block arrays of level `n ≥ 1` never exceed `cap n` and
the value array never exceeds `cap D`. -/
def SRep {α : Type} (N D : Nat) (cap : Nat → Nat) (dflt : Option α) (Ph : List Nat) (t : ST α)
    (M : Nat → Option α) : Prop := ∃ B, SS N D cap dflt Ph t M B

/-- The configuration: masks of 1, 2 or 4 words, depth 1..8 (config.rs). -/
structure Cfg (N D : Nat) : Prop where
  words : N = 1 ∨ N = 2 ∨ N = 4
  pos : 1 ≤ D
  le : D ≤ 8

/-- Admissible capacities: positions fit the index types (config.rs:14-26). -/
structure CapOk (D : Nat) (cap : Nat → Nat) : Prop where
  one : ∀ n, 1 ≤ n → n ≤ D → 1 ≤ cap n
  fits : ∀ n, n < D → cap (n + 1) ≤ 2 ^ idxBits n

theorem idxBits_le (n : Nat) : idxBits n ≤ 32 := by
  unfold idxBits
  split <;> decide

theorem CapOk.lt64 {D : Nat} {cap : Nat → Nat} (h : CapOk D cap) {n : Nat} (h1 : 1 ≤ n)
    (hn : n ≤ D) : cap n < 2 ^ 64 := by
  obtain ⟨m, rfl⟩ : ∃ m, n = m + 1 := ⟨n - 1, by omega⟩
  have := h.fits m (by omega)
  have h2 : 2 ^ idxBits m ≤ 2 ^ 32 := Nat.pow_le_pow_right (by decide) (idxBits_le m)
  have h3 : (2 : Nat) ^ 32 < 2 ^ 64 := by decide
  omega

theorem Cfg.valid {N D : Nat} (h : Cfg N D) : ValidCfg N D where
  words := h.words
  depth := h.pos
  fits := by
    have h1 : width N ≤ 256 := by
      rcases h.words with e | e | e <;> subst e <;> decide
    have h2 : width N ^ D ≤ 256 ^ D := Nat.pow_le_pow_left h1 D
    have h3 : 256 ^ D ≤ 256 ^ 8 := Nat.pow_le_pow_right (by decide) h.le
    exact Nat.le_trans (Nat.le_trans h2 h3) (by decide)

theorem Cfg.nz {N D : Nat} (h : Cfg N D) : 0 < N := by
  rcases h.words with e | e | e <;> subst e <;> decide

/-- The number of usable keys: `width^depth`, except that `usize::MAX` itself is rejected by
`Index::try_from` (hibit_tree.rs:53-79; matters for width 256, depth 8 only). -/
def keyRange (N D : Nat) : Nat := min (width N ^ D) (2 ^ 64 - 1)

theorem keyRange_le (N D : Nat) : keyRange N D ≤ width N ^ D := Nat.min_le_left _ _

theorem indexFrom_eq (N D k : Nat) :
    indexFrom N D k = if k < keyRange N D then .ok k else .error .panic := rfl

section
variable {α : Type} {N D : Nat} {cap : Nat → Nat} {dflt : Option α} {Ph : List Nat} {t : ST α}
  {M : Nat → Option α} {B : List Nat → Nat}

/-! ## default -/

theorem default_ss (hD : 1 ≤ D) (hc : ∀ n, 1 ≤ n → n ≤ D → 1 ≤ cap n) :
    SS N D cap dflt Ph (default α N D dflt) (fun _ => none) (fun _ => 0) where
  lv := by
    refine ⟨by simp [default], rfl, fun p h => absurd rfl h, fun _ _ _ _ => rfl, ?_⟩
    intro n L h
    simp only [default, List.getElem?_map, Option.map_eq_some_iff, List.getElem?_eq_some_iff,
      List.length_range] at h
    obtain ⟨m, ⟨hm, e⟩, rfl⟩ := h
    simp only [List.getElem_range] at e
    subst e
    refine ⟨rfl, fun _ => rfl, fun _ => rfl, ?_, ?_, ?_, ?_⟩
    · intro p _ _ _
      exact ⟨Block.empty N, rfl, (BlockIs.empty N).congr (fun _ _ e => e.elim) fun _ _ _ => rfl⟩
    · intro p q _ _ _ h; exact absurd rfl h
    · refine ⟨[], rfl, List.nodup_nil, fun _ h => by simp at h, fun b h1 h2 => ?_⟩
      simp [Level.default] at h2; omega
    · intro h
      exact hc n (by omega) (by omega)
  exact p _ _ h := absurd rfl h
  data := by
    refine ⟨rfl, rfl, hc D hD (Nat.le_refl _), rfl, fun P _ h => absurd rfl h,
      fun p i _ h => absurd rfl h, ?_, ?_⟩
    · intro d h1 h2; simp [default] at h2; omega
    · intro d h1 h2; simp [default] at h2; omega
  den k := by simp

/-! ## get -/

theorem LvRep.fetchFrom_eq {lv : List Level} (H : LvRep N D cap lv B none) {P : List Nat}
    (hP : ValidPath (width N) P) (hl : P.length = D) : ∀ k n, n + k = D →
    fetchFrom P n (B (P.take n)) (lv.drop n) =
      .ok ((List.range k).map (fun m => B (P.take (n + m + 1))), B P) := by
  intro k
  induction k with
  | zero =>
    intro n hn
    rw [List.drop_of_length_le (by rw [H.len]; omega), List.take_of_length_le (by omega)]
    rfl
  | succ k ih =>
    intro n hn
    obtain ⟨L, hL, -⟩ := H.get (n := n) (by omega)
    have hlt := (List.getElem?_eq_some_iff.1 hL).1
    have hdrop : lv.drop n = L :: lv.drop (n + 1) := by
      rw [List.drop_eq_getElem_cons hlt]
      congr 1
      exact (List.getElem?_eq_some_iff.1 hL).2
    have hget : P[n]? = some P[n] := List.getElem?_eq_getElem (by omega)
    have htk := take_succ_of_getElem? hget
    have hpl : (P.take n).length = n := by simp; omega
    obtain ⟨b, hb, hbI⟩ := H.block (p := P.take n) (hP.take n) (by rw [hpl]; exact hL)
    have hc := hbI.get (i := P[n]) (hP _ (List.getElem_mem _)) (by simp)
    rw [← htk] at hc
    rw [hdrop]
    simp only [fetchFrom, getU_some hb, getU_some hget, bind_ok, hc, ih (n + 1) (by omega),
      pure_eq_ok]
    congr 2
    rw [List.range_succ_eq_map, List.map_cons, List.map_map]
    congr 1
    apply List.map_congr_left
    intro m _
    simp only [Function.comp_apply, Nat.succ_eq_add_one]
    congr 2; omega

theorem SS.fetch (S : SS N D cap dflt Ph t M B) {P : List Nat} (hP : ValidPath (width N) P)
    (hl : P.length = D) : fetchBlockIndices t P =
      .ok ((List.range D).map (fun m => B (P.take (m + 1))), B P) := by
  have := S.lv.fetchFrom_eq hP hl D 0 (by omega)
  simp only [List.take_zero, S.lv.root, List.drop_zero, Nat.zero_add] at this
  exact this

theorem SS.fetch1 (S : SS N D cap dflt Ph t M B) {P : List Nat} (hP : ValidPath (width N) P)
    (hl : P.length = D) : fetchBlockIndex t P = .ok (B P) := by
  unfold fetchBlockIndex
  rw [S.fetch hP hl]; rfl

theorem ValRep.pos (V : ValRep N D cap dflt t B) : 1 ≤ t.values.length := by
  have := (List.getElem?_eq_some_iff.1 V.zero).1
  omega

theorem ValRep.lt (V : ValRep N D cap dflt t B) {P : List Nat} (hl : P.length = D)
    (h : B P ≠ 0) : B P < t.values.length := by
  rw [← V.lenK]
  exact (List.getElem?_eq_some_iff.1 (V.keyOf P hl h)).1

theorem ValRep.value (V : ValRep N D cap dflt t B) {P : List Nat} (hl : P.length = D)
    (h : B P ≠ 0) : ∃ v, t.values[B P]? = some (some v) :=
  V.init _ (by omega) (V.lt hl h)

theorem ValRep.inj (V : ValRep N D cap dflt t B) (hv : ∀ p, B p ≠ 0 → ValidPath (width N) p)
    {P Q : List Nat} (hP : P.length = D) (hQ : Q.length = D) (h : B P ≠ 0) (e : B P = B Q) :
    P = Q := by
  have h1 := V.keyOf P hP h
  have h2 := V.keyOf Q hQ (by rw [← e]; exact h)
  rw [← e, h1] at h2
  simp only [Option.some.injEq] at h2
  have e1 := path_unpath (hv P h)
  have e2 := path_unpath (hv Q (by rw [← e]; exact h))
  rw [hP] at e1
  rw [hQ] at e2
  rw [← e1, ← e2, h2]

theorem SS.den_path (S : SS N D cap dflt Ph t M B) {P : List Nat} (hP : ValidPath (width N) P)
    (hl : P.length = D) : M (unpath (width N) P) =
      if B P = 0 then none else (t.values[B P]?).join := by
  have hlt := unpath_lt hP
  have e := path_unpath hP
  rw [hl] at hlt e
  rw [S.den, if_pos hlt, e]

theorem SS.some_iff (S : SS N D cap dflt Ph t M B) {P : List Nat} (hP : ValidPath (width N) P)
    (hl : P.length = D) : (M (unpath (width N) P)).isSome = true ↔ B P ≠ 0 := by
  rw [S.den_path hP hl]
  by_cases h : B P = 0
  · simp [h]
  · obtain ⟨v, hv⟩ := S.data.value hl h
    rw [if_neg h, hv]
    simp [h]

theorem SS.treeData_eq (S : SS N D cap dflt Ph t M B) {P : List Nat} (hP : ValidPath (width N) P)
    (hl : P.length = D) : treeData t P = .ok (M (unpath (width N) P)) := by
  unfold treeData
  rw [S.fetch1 hP hl, S.den_path hP hl]
  simp only [bind_ok]
  by_cases h : B P = 0
  · simp [h]
  · obtain ⟨v, hv⟩ := S.data.value hl h
    rw [if_neg h, if_neg h, getU_some hv, hv]
    rfl

theorem validPath_path {k : Nat} (hk : k < width N ^ D) : ValidPath (width N) (path (width N) D k) :=
  path_lt D hk

theorem get_spec (hc : Cfg N D) (R : SRep N D cap dflt Ph t M) {k : Nat} (hk : k < keyRange N D) :
    (impl α N D).get t k = .ok (M k) := by
  obtain ⟨B, S⟩ := R
  have hk' := Nat.lt_of_lt_of_le hk (keyRange_le N D)
  unfold Impl.get
  show (do let index ← indexFrom N D k
           let indices ← levelIndices N D index
           treeData t indices) = _
  rw [indexFrom_eq, if_pos hk]
  simp only [bind_ok, levelIndices_eq hc.valid]
  rw [S.treeData_eq (validPath_path hk') (path_length _ _ _), unpath_path _ _ _ hk']

/-- The stored value and its position. -/
theorem SS.entry (S : SS N D cap dflt Ph t M B) {k : Nat} (hk : k < width N ^ D) :
    (M k = none ∧ B (path (width N) D k) = 0) ∨
    ∃ v, M k = some v ∧ B (path (width N) D k) ≠ 0 ∧
      t.values[B (path (width N) D k)]? = some (some v) := by
  have hd := S.den k
  rw [if_pos hk] at hd
  by_cases h : B (path (width N) D k) = 0
  · rw [if_pos h] at hd; exact .inl ⟨hd, h⟩
  · obtain ⟨v, hv⟩ := S.data.value (path_length _ _ _) h
    rw [if_neg h, hv] at hd
    exact .inr ⟨v, hd, h, hv⟩

/-! ## get_or_insert_impl -/

theorem getElem?_append_single {β : Type} (l : List β) (x : β) (d : Nat) :
    (l ++ [x])[d]? = if d = l.length then some x else l[d]? := by
  by_cases h : d = l.length
  · subst h; simp
  · rw [if_neg h]
    rcases Nat.lt_or_gt_of_ne h with h' | h'
    · rw [List.getElem?_append_left h']
    · rw [List.getElem?_append_right (by omega), List.getElem?_eq_none (by simp; omega),
        List.getElem?_eq_none (by omega)]

/-- Overwriting a stored value. -/
theorem SS.setVal (S : SS N D cap dflt Ph t M B) {k : Nat} (hk : k < width N ^ D)
    (hB : B (path (width N) D k) ≠ 0) (v : α) :
    SS N D cap dflt Ph { t with values := t.values.set (B (path (width N) D k)) (some v) }
      (put M k (some v)) B where
  lv := S.lv
  exact := S.exact
  data := by
    have V := S.data
    have hlt := V.lt (path_length _ _ _) hB
    refine ⟨by simpa using V.lenK, by simpa using V.lenL, by simpa using V.bound, ?_, V.keyOf,
      V.lastOf, ?_, ?_⟩
    · simp only
      rw [List.getElem?_set_ne hB]; exact V.zero
    · intro d h1 h2; exact V.surj d h1 (by simpa using h2)
    · intro d h1 h2
      simp only [getElem?_set_if hlt]
      by_cases e : d = B (path (width N) D k)
      · exact ⟨v, by simp [e]⟩
      · rw [if_neg e]; exact V.init d h1 (by simpa using h2)
  den k' := by
    have hlt := S.data.lt (path_length _ _ _) hB
    unfold put
    by_cases e : k' = k
    · subst e
      simp [hk, hB, hlt]
    · rw [if_neg e, S.den k']
      by_cases hk' : k' < width N ^ D
      · rw [if_pos hk', if_pos hk']
        by_cases hz : B (path (width N) D k') = 0
        · simp [hz]
        · rw [if_neg hz, if_neg hz]
          simp only
          rw [List.getElem?_set_ne]
          intro e'
          have := S.data.inj (fun p h => (S.lv.valid p h).1) (path_length _ _ _) (path_length _ _ _) hB e'
          exact e (path_injOn hk' hk this.symm)
      · rw [if_neg hk', if_neg hk']

theorem SS.getOrInsertImpl_spec (hc : Cfg N D) (hcap : CapOk D cap)
    (S : SS N D cap dflt Ph t M B) {k : Nat} (hk : k < width N ^ D) (ins : Bool) (v : α)
    (hroom : ∀ n, n + 1 < D → B ((path (width N) D k).take (n + 1)) = 0 →
      liveCount (width N) (n + 1) B + 2 ≤ cap (n + 1))
    (hroomV : M k = none → t.values.length + 1 ≤ cap D) :
    ∃ out B', getOrInsertImpl N D t k ins v = .ok out ∧
      SS N D cap dflt Ph out.tree (put M k (some (if ins then v else (M k).getD v))) B' ∧
      out.dataIndex = B' (path (width N) D k) ∧ out.dataIndex ≠ 0 ∧
      out.tree.values[out.dataIndex]? = some (some (if ins then v else (M k).getD v)) ∧
      out.dropped = (if ins then (M k).toList else []) ∧
      out.called = (ins || (M k).isNone) := by
  have hPv := validPath_path hk
  have hPl := path_length (width N) D k
  have hup := unpath_path (width N) D k hk
  have hlev : levelIndices N D k = .ok (path (width N) D k) := levelIndices_eq hc.valid k
  have hpos := hc.pos
  have hle := hc.le
  obtain ⟨lv', B', e1, H', hlive, hs, htake, hkeep⟩ := insertWalk_spec hc.nz S.lv hPv hPl hc.pos
    (by omega) hroom (fun n hn => hcap.fits n (by omega))
  have hent := S.entry hk
  have hset := @SS.setVal _ _ _ _ _ _ _ _ _ S k hk
  have hpinj : ∀ k', k' < width N ^ D → path (width N) D k' = path (width N) D k → k' = k :=
    fun k' hk' e => path_injOn hk' hk e
  generalize hPe : path (width N) D k = P at *
  rcases eq_nil_or_append P with rfl | ⟨p, i, rfl⟩
  · simp at hPl; omega
  have hpl : p.length + 1 = D := by simpa using hPl
  have htk : (p ++ [i]).take (D - 1) = p := by
    rw [List.take_append_of_le_length (by omega), List.take_of_length_le (by omega)]
  rw [htk] at e1 hlive
  obtain ⟨hpv, hi⟩ := ValidPath.of_append hPv
  have hlast : (p ++ [i]).getLast? = some i := by simp
  have hBP : B' (p ++ [i]) = B (p ++ [i]) := by
    apply hs
    intro n h1 h2 e
    have : (p ++ [i]).length = ((p ++ [i]).take n).length := by rw [← e]
    simp at this; omega
  have hlive' : p = [] ∨ B' p ≠ 0 := by
    rcases hlive with h | h
    · exact .inl (List.length_eq_zero_iff.1 (by omega))
    · exact .inr h
  obtain ⟨L, hL, hk1⟩ := H'.get (n := p.length) (by omega)
  have hD1 : D - 1 = p.length := by omega
  rw [hD1] at e1
  obtain ⟨b, hb, hbI⟩ := H'.block hpv hL
  have hcg := hbI.get hi (by simp)
  rw [hBP] at hcg
  have hvalid : ∀ q, B q ≠ 0 → ValidPath (width N) q := fun q h => (S.lv.valid q h).1
  rcases hent with ⟨hM, hz⟩ | ⟨ov, hM, hnz, hval⟩
  · -- a new value
    have hpV := S.data.pos
    have hroomV := hroomV hM
    have hnz : t.values.length ≠ 0 := by omega
    have hfit : t.values.length < 2 ^ idxBits p.length := by
      have := hcap.fits p.length (by omega)
      rw [hpl] at this
      omega
    have hbI' : BlockIs N b (fun j => B' (p ++ [j])) (fun _ => False) :=
      hbI.congr (fun _ _ e => by cases e) fun _ _ _ => rfl
    obtain ⟨b', e2, hb'⟩ := hbI'.insert hi hnz hfit
    have H2 := H'.setValue hpv hi hpl hnz hlive' hL (b' := b')
      (hb'.congr (fun _ _ e => e.1.elim) fun _ _ _ => rfl)
    have hDval : ∀ q, q.length = D → q ≠ p ++ [i] → upd B' (p ++ [i]) t.values.length q = B q := by
      intro q hq hne
      rw [upd_ne _ hne]
      apply hs
      intro n h1 h2 e
      rw [e] at hq
      simp at hq; omega
    have hlen1 := S.data.lenK
    have hlen2 := S.data.lenL
    have hltD : ∀ q, q.length = D → B q ≠ 0 → B q < t.values.length :=
      fun q hq h => S.data.lt hq h
    refine ⟨⟨⟨lv'.set p.length { L with blocks := L.blocks.set (B' p) b' },
      t.values ++ [some v], t.keys ++ [k], t.last ++ [(B' p, i)]⟩, t.values.length, [], true⟩,
      upd B' (p ++ [i]) t.values.length, ?_, ⟨H2, ?_, ?_, ?_⟩, ?_, hnz, ?_, ?_, ?_⟩
    · unfold getOrInsertImpl
      simp only [hlev, bind_ok, hlast, unwrapU, e1, hD1, getP_some hL, getU_some hb, hcg, hz,
        if_true, e2, setU_ok _ (List.getElem?_eq_some_iff.1 hb).1, pure_eq_ok]
    · -- exactness
      intro q hq hql hlv
      have hqne : q ≠ p ++ [i] := by rintro rfl; simp at hql; omega
      rw [upd_ne _ hqne] at hlv
      by_cases hpre : ∃ n, 1 ≤ n ∧ n < D ∧ q = (p ++ [i]).take n
      · obtain ⟨n, h1, h2, rfl⟩ := hpre
        by_cases hn : n + 1 = D
        · refine .inl ⟨i, ?_⟩
          have : (p ++ [i]).take n = p := by
            rw [show n = D - 1 by omega]; exact htk
          rw [this, upd_same]; exact hnz
        · have hget : (p ++ [i])[n]? = some (p ++ [i])[n] := List.getElem?_eq_getElem (by simp; omega)
          refine .inl ⟨(p ++ [i])[n], ?_⟩
          rw [← take_succ_of_getElem? hget, upd_ne]
          · exact htake (n + 1) (by omega) (by omega)
          · intro e
            have : ((p ++ [i]).take (n + 1)).length = (p ++ [i]).length := by rw [e]
            simp at this; omega
      · have hBq : B' q = B q := hs q (fun n h1 h2 e => hpre ⟨n, h1, h2, e⟩)
        rw [hBq] at hlv
        rcases S.exact q hq hql hlv with ⟨j, hj⟩ | hph
        case inr => exact .inr hph
        refine .inl ⟨j, ?_⟩
        by_cases e : q ++ [j] = p ++ [i]
        · rw [e, upd_same]; exact hnz
        · rw [upd_ne _ e, hkeep _ hj]; exact hj
    · -- values
      refine ⟨by simp [hlen1], by simp [hlen2], by simpa using hroomV, ?_, ?_, ?_, ?_, ?_⟩
      · simp only
        rw [List.getElem?_append_left (by omega)]; exact S.data.zero
      · intro q hq hne
        simp only
        rw [getElem?_append_single]
        by_cases e : q = p ++ [i]
        · subst e
          rw [upd_same, if_pos hlen1.symm, hup]
        · rw [hDval q hq e] at hne ⊢
          rw [if_neg (by have := hltD q hq hne; omega)]
          exact S.data.keyOf q hq hne
      · intro q j hq hne
        simp only
        rw [getElem?_append_single]
        have hqD : (q ++ [j]).length = D := by simpa using hq
        have hqne : q ≠ p ++ [i] := by rintro rfl; simp at hq; omega
        by_cases e : q ++ [j] = p ++ [i]
        · obtain ⟨rfl, rfl⟩ := append_singleton_inj.1 e
          rw [upd_same, if_pos hlen2.symm, upd_ne _ hqne]
        · rw [hDval _ hqD e] at hne ⊢
          rw [if_neg (by have := hltD _ hqD hne; omega), upd_ne _ hqne]
          rw [S.data.lastOf q j hq hne]
          rcases S.lv.parent_live hne with h | h
          · rw [h, S.lv.root, H'.root]
          · rw [hkeep q h]
      · intro d h1 h2
        simp only [List.length_append, List.length_singleton] at h2
        by_cases e : d = t.values.length
        · exact ⟨p ++ [i], hPl, by rw [upd_same, e]⟩
        · obtain ⟨Q, hQ, hQd⟩ := S.data.surj d h1 (by omega)
          refine ⟨Q, hQ, ?_⟩
          rw [hDval Q hQ, hQd]
          rintro rfl; omega
      · intro d h1 h2
        simp only [List.length_append, List.length_singleton] at h2
        simp only
        rw [getElem?_append_single]
        by_cases e : d = t.values.length
        · exact ⟨v, by rw [if_pos e]⟩
        · rw [if_neg e]; exact S.data.init d h1 (by omega)
    · intro k'
      simp only [hM, Option.getD_none, ite_self, put]
      by_cases e : k' = k
      · subst e
        rw [if_pos rfl, if_pos hk, hPe, upd_same, if_neg hnz]
        simp
      · rw [if_neg e, S.den k']
        by_cases hk' : k' < width N ^ D
        · rw [if_pos hk', if_pos hk']
          have hne : path (width N) D k' ≠ p ++ [i] := fun h => e (hpinj k' hk' h)
          rw [hDval _ (path_length _ _ _) hne]
          by_cases hz' : B (path (width N) D k') = 0
          · rw [if_pos hz', if_pos hz']
          · rw [if_neg hz', if_neg hz', List.getElem?_append_left]
            exact hltD _ (path_length _ _ _) hz'
        · rw [if_neg hk', if_neg hk']
    · rw [upd_same]
    · simp [hM]
    · simp [hM]
    · simp [hM]
  · -- the key is present: nothing was added
    have hallive : ∀ n, 1 ≤ n → n ≤ D → B ((p ++ [i]).take n) ≠ 0 := by
      have : ∀ m n, n + m = D → 1 ≤ n → B ((p ++ [i]).take n) ≠ 0 := by
        intro m
        induction m with
        | zero =>
          intro n h _
          rw [List.take_of_length_le (by simp; omega)]; exact hnz
        | succ m ih =>
          intro n h h1
          have h2 := ih (n + 1) (by omega) (by omega)
          have hget : (p ++ [i])[n]? = some (p ++ [i])[n] := List.getElem?_eq_getElem (by simp; omega)
          rw [take_succ_of_getElem? hget] at h2
          rcases S.lv.parent_live h2 with h3 | h3
          · have : ((p ++ [i]).take n).length = 0 := by rw [h3]; rfl
            simp at this; omega
          · exact h3
      intro n h1 h2
      exact this (D - n) n (by omega) h1
    have hBB : B' = B := by
      funext q
      by_cases hpre : ∃ n, 1 ≤ n ∧ n < D ∧ q = (p ++ [i]).take n
      · obtain ⟨n, h1, h2, rfl⟩ := hpre
        exact hkeep _ (hallive n h1 (by omega))
      · exact hs q (fun n h1 h2 e => hpre ⟨n, h1, h2, e⟩)
    subst hBB
    have hlt := S.data.lt hPl hnz
    have S1 : SS N D cap dflt Ph { t with levels := lv' } M B' :=
      ⟨H', S.exact, ⟨S.data.lenK, S.data.lenL, S.data.bound, S.data.zero, S.data.keyOf,
        S.data.lastOf, S.data.surj, S.data.init⟩, S.den⟩
    cases ins with
    | true =>
      have S2 := S1.setVal hk (by rw [hPe]; exact hnz) v
      rw [hPe] at S2
      refine ⟨⟨_, B' (p ++ [i]), [ov], true⟩, B', ?_, S2, rfl, hnz, by simp [hlt], by simp [hM], rfl⟩
      unfold getOrInsertImpl
      simp only [hlev, bind_ok, hlast, unwrapU, e1, hD1, getP_some hL, getU_some hb, hcg,
        if_neg hnz, getU_some hval, if_true, setU_ok _ hlt, pure_eq_ok]
    | false =>
      refine ⟨⟨{ t with levels := lv' }, B' (p ++ [i]), [], false⟩, B', ?_, ?_, rfl, hnz, ?_, rfl, by simp [hM]⟩
      · unfold getOrInsertImpl
        simp only [hlev, bind_ok, hlast, unwrapU, e1, hD1, getP_some hL, getU_some hb, hcg,
          if_neg hnz, getU_some hval, Bool.false_eq_true, if_false, pure_eq_ok]
      · have : put M k (some (if false = true then v else (M k).getD v)) = M := by
          funext x
          unfold put
          split
          · next e => rw [e, hM]; simp
          · rfl
        rw [this]; exact S1
      · simp [hM, hval]

end

end Hibit.Sparse
