import Verif.Sparse.Panic
import Verif.Sparse.Lawful
import Verif.Dense.Stale
/-!
# SparseTree: which empty blocks a panicking `Data::default()` leaves behind
-/
namespace Hibit.Sparse
open Hibit

/-! ## Specification -/

/-- The keys whose block of `W` indices may be left without elements although the hierarchy shows it:
a `get_or_insert(k)` that unwinds adds `k`, and removing an element from a block cleans that block up. -/
def PEvent.stale {α : Type} (W : Nat) (M : Nat → Option α) (st : List Nat) : PEvent α → List Nat
  | .defaultPanics k => if (M k).isSome then st else k :: st
  | .op (.remove k) => if (M k).isSome then st.filter (fun j => j / W ≠ k / W) else st
  | .op _ => st

/-- The stale keys after a history. -/
def staleRun {α : Type} (W : Nat) (dflt : Option α) (M : Nat → Option α) (st : List Nat) :
    List (PEvent α) → List Nat
  | [] => st
  | e :: es => staleRun W dflt (e.spec dflt M).1 (e.stale W M st) es

/-! ## Proofs -/

variable {α : Type} {N D : Nat} {cap : Nat → Nat} {dflt : Option α} {Ph st : List Nat} {t : ST α}
  {M : Nat → Option α} {B : List Nat → Nat}

/-- A present key keeps the blocks on its way non-empty: its block is not stale. -/
theorem SS.present (hc : Cfg N D) (S : SS N D cap dflt st t M B)
    {k : Nat} (hk : k < width N ^ D)
    (hM : (M k).isSome = true) {st' : List Nat}
    (h : ∀ j ∈ st, j / width N ≠ k / width N → j ∈ st') : SS N D cap dflt st' t M B := by
  refine ⟨S.lv, fun p hne hl hB => ?_, S.data, S.den⟩
  rcases S.exact p hne hl hB with h1 | ⟨j, hj, hjl, hjp⟩
  · exact .inl h1
  · by_cases e : j / width N = k / width N
    · left
      have hW : 0 < width N := by unfold width; have := hc.nz; omega
      have ht : (path (width N) D j).take (D - 1) = (path (width N) D k).take (D - 1) := by
        rw [Dense.path_take_pred hW hc.pos hjl, Dense.path_take_pred hW hc.pos hk, e]
      have hpk : (path (width N) D k).take p.length = p := by
        have := congrArg (List.take p.length) ht
        rw [List.take_take, List.take_take, Nat.min_eq_left (by omega)] at this
        rw [← this, hjp]
      have hBk : B (path (width N) D k) ≠ 0 := by
        rw [← S.some_iff (validPath_path hk) (path_length _ _ _), unpath_path (width N) D k hk]
        exact hM
      have hlt : p.length < (path (width N) D k).length := by rw [path_length]; exact hl
      refine ⟨(path (width N) D k)[p.length], ?_⟩
      have h2 := take_succ_of_getElem? (List.getElem?_eq_getElem hlt)
      rw [hpk] at h2
      rw [← h2]
      refine S.lv.prefix_live (P := path (width N) D k) (D - (p.length + 1)) (p.length + 1)
        (by rw [path_length]; omega) (by omega) ?_
      rw [List.take_of_length_le (by rw [path_length]; omega)]
      exact hBk
    · exact .inr ⟨j, h j hj e, hjl, hjp⟩

theorem occ_mono {Ph Ph' : List Nat} (h : ∀ k ∈ Ph, k ∈ Ph') (M : Nat → Option α)
    (hf : Fits (width N) D cap (occ Ph' M)) : Fits (width N) D cap (occ Ph M) := by
  intro n h1 h2
  have := groups_mono (W := width N) (D := D) (n := n) (M := occ Ph M) (M' := occ Ph' M)
    (fun k _ hk => by
      rw [occ_isSome] at hk ⊢
      rcases hk with hk | hk
      · exact .inl hk
      · exact .inr (h k hk))
  have := hf n h1 h2
  omega

theorem SRep.mono {st st' : List Nat} (R : SRep N D cap dflt st t M) (h : ∀ k ∈ st, k ∈ st') :
    SRep N D cap dflt st' t M := by
  obtain ⟨B, S⟩ := R
  refine ⟨B, S.lv, fun p h1 h2 h3 => ?_, S.data, S.den⟩
  rcases S.exact p h1 h2 h3 with h4 | ⟨j, hj, h4⟩
  · exact .inl h4
  · exact .inr ⟨j, h j hj, h4⟩

theorem pstep_stale (hc : Cfg N D) (hcap : CapOk D cap) (R : SRep N D cap dflt st t M)
    (hst : ∀ k ∈ st, k < width N ^ D) (hsub : ∀ k ∈ st, k ∈ Ph)
    {e : PEvent α} (hok : e.Ok (keyRange N D) dflt)
    (hfit : Fits (width N) D cap (occ (e.left ++ Ph) (e.spec dflt M).1)) :
    (∃ t', pstep N D t e = .ok (t', (e.spec dflt M).2) ∧
      SRep N D cap dflt (e.stale (width N) M st) t' (e.spec dflt M).1) ∧
    (∀ k ∈ e.stale (width N) M st, k < width N ^ D) ∧
    ∀ k ∈ e.stale (width N) M st, k ∈ e.left ++ Ph := by
  cases e with
  | defaultPanics k =>
    have hk : k < width N ^ D := Nat.lt_of_lt_of_le hok (keyRange_le N D)
    have hfit' : Fits (width N) D cap (occ (k :: st) M) := occ_mono (by
      intro j hj
      rcases List.mem_cons.1 hj with rfl | hj
      · simp [PEvent.left]
      · simp [PEvent.left, hsub j hj]) M hfit
    obtain ⟨t', e1, R'⟩ := R.getOrInsertPanic_spec hc hcap hok hfit'
    have hs : pstep N D t (.defaultPanics k) =
        .ok (t', ((PEvent.defaultPanics k).spec dflt M).2) := by
      simp only [pstep, e1, bind_ok, pure_eq_ok]; rfl
    by_cases hM : (M k).isSome = true
    · simp only [PEvent.stale, hM, if_true]
      refine ⟨⟨t', hs, ?_⟩, hst, fun j hj => by simp [PEvent.left, hsub j hj]⟩
      obtain ⟨B, S⟩ := R'
      refine ⟨B, S.present hc hk hM fun j hj hne => ?_⟩
      rcases List.mem_cons.1 hj with rfl | hj
      · exact absurd rfl hne
      · exact hj
    · simp only [PEvent.stale, hM]
      refine ⟨⟨t', hs, R'⟩, by simpa [hk] using hst, ?_⟩
      intro j hj
      simp only [Bool.false_eq_true, if_false, List.mem_cons] at hj
      rcases hj with rfl | hj
      · simp [PEvent.left]
      · simp [PEvent.left, hsub j hj]
  | op o =>
    have hfit' : Fits (width N) D cap (occ st (o.spec dflt M).1) := occ_mono hsub _ hfit
    have same : (PEvent.op o).stale (width N) M st = st →
        (∃ t', pstep N D t (.op o) = .ok (t', (o.spec dflt M).2) ∧
          SRep N D cap dflt ((PEvent.op o).stale (width N) M st) t' (o.spec dflt M).1) ∧
        (∀ k ∈ (PEvent.op o).stale (width N) M st, k < width N ^ D) ∧
        ∀ k ∈ (PEvent.op o).stale (width N) M st, k ∈ (PEvent.op o).left ++ Ph := by
      intro h
      rw [h]
      exact ⟨step_spec hc hcap R hok hfit', hst, hsub⟩
    cases o with
    | insert k v => exact same rfl
    | getOrInsert k d g => exact same rfl
    | get k => exact same rfl
    | getMut k g => exact same rfl
    | getOrDefault k => exact same rfl
    | mutValues g => exact same rfl
    | remove k =>
      by_cases hM : (M k).isSome = true
      · have hk : k < width N ^ D := Nat.lt_of_lt_of_le hok (keyRange_le N D)
        have hsub' : ∀ j ∈ st.filter (fun j => j / width N ≠ k / width N), j ∈ st :=
          fun j hj => (List.mem_filter.1 hj).1
        have R1 : SRep N D cap dflt (st.filter (fun j => j / width N ≠ k / width N)) t M := by
          obtain ⟨B, S⟩ := R
          exact ⟨B, S.present hc hk hM fun j hj hne =>
            List.mem_filter.2 ⟨hj, by simp [hne]⟩⟩
        simp only [PEvent.stale, hM, if_true]
        exact ⟨step_spec hc hcap R1 (op := .remove k) hok (occ_mono hsub' _ hfit'),
          fun j hj => hst j (hsub' j hj), fun j hj => hsub j (hsub' j hj)⟩
      · exact same (by simp [PEvent.stale, hM])

/-- **Refinement of histories with caught panics**, with the stale blocks. -/
theorem prun_stale (hc : Cfg N D) (hcap : CapOk D cap) : ∀ (es : List (PEvent α)) (st Ph : List Nat)
    (t : ST α) (M : Nat → Option α), SRep N D cap dflt st t M → (∀ k ∈ st, k < width N ^ D) →
    (∀ k ∈ st, k ∈ Ph) →
    (∀ e ∈ es, e.Ok (keyRange N D) dflt) → PAlways dflt (Fits (width N) D cap) Ph M es →
    (∃ t', prun N D t es = .ok (t', (pspecRun dflt M es).2) ∧
      SRep N D cap dflt (staleRun (width N) dflt M st es) t' (pspecRun dflt M es).1) ∧
    ∀ k ∈ staleRun (width N) dflt M st es, k < width N ^ D := by
  intro es
  induction es with
  | nil => intro st Ph t M R hst _ _ _; exact ⟨⟨t, rfl, R⟩, hst⟩
  | cons e es ih =>
    intro st Ph t M R hst hsub hok hb
    obtain ⟨⟨t1, e1, R1⟩, hst1, hsub1⟩ := pstep_stale hc hcap R hst hsub (hok e (by simp)) hb.2.head
    obtain ⟨⟨t2, e2, R2⟩, hst2⟩ := ih _ _ t1 _ R1 hst1 hsub1 (fun o ho => hok o (by simp [ho])) hb.2
    refine ⟨⟨t2, ?_, R2⟩, hst2⟩
    simp only [prun, e1, bind_ok, e2, pure_eq_ok]
    rfl

/-- Every set bit of the hierarchy leads to a stored or a stale key. -/
theorem SS.bits_stale (S : SS N D cap dflt st t M B) {p : List Nat} {j : Nat} (hl : p.length < D)
    (hb : (blockSpec N B M).bits p j = true) :
    ∃ q, ValidPath (width N) (p ++ j :: q) ∧ (p ++ j :: q).length = D ∧
      ((M (unpath (width N) (p ++ j :: q))).isSome = true ∨
        unpath (width N) (p ++ j :: q) ∈ st) := by
  have hB : B (p ++ [j]) ≠ 0 := by simpa [blockSpec] using hb
  rcases S.live_below (D - (p.length + 1)) (p ++ [j]) (by simp; omega) (by simp) hB with
    ⟨q, h1, h2, h3⟩ | ⟨k, hk, hkl, hkp⟩
  · rw [List.append_assoc] at h1 h2 h3
    exact ⟨q, h1, h2, .inl h3⟩
  · have e : p ++ j :: (path (width N) D k).drop (p.length + 1) = path (width N) D k := by
      have := List.take_append_drop (p.length + 1) (path (width N) D k)
      rw [List.length_append, List.length_singleton] at hkp
      rw [hkp] at this
      simpa using this
    refine ⟨(path (width N) D k).drop (p.length + 1), ?_, ?_, .inr ?_⟩
    · rw [e]; exact validPath_path hkl
    · rw [e]; exact path_length _ _ _
    · rw [e, unpath_path (width N) D k hkl]; exact hk

end Hibit.Sparse
