import Verif.Dense.Panic
import Verif.Dense.Lawful
/-!
# DenseTree: which empty nodes a panicking `T::default()` leaves behind
-/
namespace Hibit.Dense
open Hibit

/-! ## Specification -/

/-- The keys whose block of 64 indices may be left without elements although the hierarchy shows it:
a `get_or_insert(k)` that unwinds adds `k`, and removing an element from a block cleans that block up. -/
def PEvent.stale {α : Type} (M : Nat → Option α) (st : List Nat) : PEvent α → List Nat
  | .defaultPanics k => if (M k).isSome then st else k :: st
  | .op (.remove k) => if (M k).isSome then st.filter (fun j => j / 64 ≠ k / 64) else st
  | .op _ => st

/-- The stale keys after a history. -/
def staleRun {α : Type} (M : Nat → Option α) (st : List Nat) : List (PEvent α) → List Nat
  | [] => st
  | e :: es => staleRun (e.spec M).1 (e.stale M st) es

/-! ## Proofs -/

theorem path_take_pred {W D k : Nat} (hW : 0 < W) (h1 : 1 ≤ D) (hk : k < W ^ D) :
    (path W D k).take (D - 1) = path W (D - 1) (k / W) := by
  obtain ⟨d, rfl⟩ : ∃ d, D = d + 1 := ⟨D - 1, by omega⟩
  rw [path_concat W hW d k hk, Nat.add_sub_cancel,
    List.take_append_of_le_length (by rw [path_length]; exact Nat.le_refl _),
    List.take_of_length_le (by rw [path_length]; exact Nat.le_refl _)]

/-- Exactness is claimed for all nodes but the terminal nodes of the stale keys. -/
def FreshNode (D : Nat) (st : List Nat) (p : List Nat) : Prop :=
  ∀ k ∈ st, p ≠ (path 64 D k).take (D - 1)

variable {α : Type} {D : Nat} {t : DT α} {M : Nat → Option α} {st : List Nat}

theorem pstep_stale (h9 : D ≤ 9) (R : DRep (FreshNode D st) D t M) (hst : ∀ k ∈ st, k < 64 ^ D)
    {e : PEvent α} (hok : e.Ok D) (hb : card (64 ^ D) (e.spec M).1 < 2 ^ 32) :
    (∃ t', pstep D t e = .ok (t', (e.spec M).2) ∧
      DRep (FreshNode D (e.stale M st)) D t' (e.spec M).1) ∧ ∀ k ∈ e.stale M st, k < 64 ^ D := by
  cases e with
  | defaultPanics k =>
    obtain ⟨t', e1, R'⟩ := getOrInsertPanic_spec R hok.1 h9 hok.2
    have hs : pstep D t (.defaultPanics k) = .ok (t', ((PEvent.defaultPanics k).spec M).2) := by
      simp only [pstep, e1, bind_ok, pure_eq_ok]; rfl
    by_cases hM : (M k).isSome = true
    · simp only [PEvent.stale, hM, if_true]
      refine ⟨⟨t', hs, (R'.present hok.1 hok.2 hM).mono fun p hp => ?_⟩, hst⟩
      by_cases h : p = (path 64 D k).take (D - 1)
      · exact .inr h
      · exact .inl ⟨hp, h⟩
    · simp only [PEvent.stale, hM]
      refine ⟨⟨t', hs, R'.mono fun p hp => ⟨fun j hj => hp j (by simp [hj]), hp k (by simp)⟩⟩, ?_⟩
      intro j hj
      simp only [Bool.false_eq_true, if_false, List.mem_cons] at hj
      rcases hj with rfl | hj
      · exact hok.2
      · exact hst j hj
  | op o =>
    have same : (PEvent.op o).stale M st = st →
        (∃ t', pstep D t (.op o) = .ok (t', (o.spec M).2) ∧
          DRep (FreshNode D ((PEvent.op o).stale M st)) D t' (o.spec M).1) ∧
        ∀ k ∈ (PEvent.op o).stale M st, k < 64 ^ D := by
      intro h
      rw [h]
      exact ⟨step_spec R hok.1 h9 hok.2 hb, hst⟩
    cases o with
    | insert k v => exact same rfl
    | getOrInsert k d g => exact same rfl
    | get k => exact same rfl
    | mutValues g => exact same rfl
    | remove k =>
      by_cases hM : (M k).isSome = true
      · have h1 : 1 ≤ D := Nat.le_trans (by decide : 1 ≤ 2) hok.1
        have hk : k < 64 ^ D := hok.2
        obtain ⟨t', e1, R'⟩ := step_spec (R.present h1 hk hM) hok.1 h9 hok.2 hb
        simp only [PEvent.stale, hM, if_true]
        refine ⟨⟨t', e1, R'.mono fun p hp => ?_⟩, fun j hj => hst j (List.mem_filter.1 hj).1⟩
        by_cases h : p = (path 64 D k).take (D - 1)
        · exact .inr h
        · refine .inl fun j hj => ?_
          by_cases e : j / 64 = k / 64
          · rw [path_take_pred (by decide) h1 (hst j hj), e, ← path_take_pred (by decide) h1 hk]
            exact h
          · exact hp j (List.mem_filter.2 ⟨hj, by simp [e]⟩)
      · exact same (by simp [PEvent.stale, hM])

/-- **Refinement of histories with caught panics**, with the stale blocks. -/
theorem prun_stale (h9 : D ≤ 9) : ∀ (es : List (PEvent α)) (t : DT α) (M : Nat → Option α)
    (st : List Nat), DRep (FreshNode D st) D t M → (∀ k ∈ st, k < 64 ^ D) →
    (∀ e ∈ es, e.Ok D) → PBounded (64 ^ D) (2 ^ 32) M es →
    (∃ t', prun D t es = .ok (t', (pspecRun M es).2) ∧
      DRep (FreshNode D (staleRun M st es)) D t' (pspecRun M es).1) ∧
    ∀ k ∈ staleRun M st es, k < 64 ^ D := by
  intro es
  induction es with
  | nil => intro t M st R hst _ _; exact ⟨⟨t, rfl, R⟩, hst⟩
  | cons e es ih =>
    intro t M st R hst hok hb
    have hb' : card (64 ^ D) (e.spec M).1 < 2 ^ 32 := by
      have := hb.2
      cases es with
      | nil => exact this
      | cons o os => exact this.1
    obtain ⟨⟨t1, e1, R1⟩, hst1⟩ := pstep_stale h9 R hst (hok e (by simp)) hb'
    obtain ⟨⟨t2, e2, R2⟩, hst2⟩ := ih t1 _ _ R1 hst1 (fun o ho => hok o (by simp [ho])) hb.2
    refine ⟨⟨t2, ?_, R2⟩, hst2⟩
    simp only [prun, e1, bind_ok, e2, pure_eq_ok]
    rfl

/-- Below every live node but the root there is a stored or a stale key. -/
theorem DS.key_or_stale {loc K : List Nat → Option Nat} (S : DS (FreshNode D st) D t M loc K)
    (hst : ∀ k ∈ st, k < 64 ^ D) : ∀ (m : Nat) (p : List Nat) (a : Nat),
    p.length + m = D → p ≠ [] → loc p = some a →
    ∃ q, ValidPath 64 (p ++ q) ∧ (p ++ q).length = D ∧
      ((M (unpath 64 (p ++ q))).isSome = true ∨ unpath 64 (p ++ q) ∈ st) := by
  intro m
  induction m with
  | zero =>
    intro p a hm _ ha
    have := (S.tree.valid _ _ ha).2
    omega
  | succ m ih =>
    intro p a hm hne ha
    obtain ⟨hv, hl⟩ := S.tree.valid _ _ ha
    by_cases hf : FreshNode D st p
    · obtain ⟨i, hi, hF⟩ := S.exact p a hf ha hne
      by_cases hb : p.length + 1 < D
      · rw [cellsOf_branch hb] at hF
        cases e : loc (p ++ [i]) with
        | none => rw [e] at hF; simp at hF
        | some b =>
          obtain ⟨q, k1, k2, k3⟩ := ih (p ++ [i]) b (by simp; omega) (by simp) e
          rw [List.append_assoc] at k1 k2 k3
          exact ⟨_, k1, k2, k3⟩
      · have hb' : p.length + 1 = D := by omega
        rw [cellsOf_term hb'] at hF
        cases e : K (p ++ [i]) with
        | none => rw [e] at hF; simp at hF
        | some d =>
          have hvi := ValidPath.append hv hi
          have hli : (p ++ [i]).length = D := by simpa using hb'
          refine ⟨[i], hvi, hli, .inl ?_⟩
          rw [S.some_iff hvi hli, e]; rfl
    · have : ∃ k ∈ st, p = (path 64 D k).take (D - 1) := by
        apply Classical.byContradiction
        intro h
        exact hf fun k hk e => h ⟨k, hk, e⟩
      obtain ⟨k, hk, rfl⟩ := this
      refine ⟨(path 64 D k).drop (D - 1), ?_, ?_, .inr ?_⟩
      · rw [List.take_append_drop]; exact validPath_path (hst k hk)
      · rw [List.take_append_drop]; exact path_length _ _ _
      · rw [List.take_append_drop, unpath_path 64 D k (hst k hk)]; exact hk

/-- Every set bit of the hierarchy leads to a stored or a stale key. -/
theorem DS.bits_stale {loc K : List Nat → Option Nat} (S : DS (FreshNode D st) D t M loc K)
    (hst : ∀ k ∈ st, k < 64 ^ D) {p : List Nat} {j : Nat} (hv : ValidPath 64 p) (hl : p.length < D)
    (hb : (locSpec D loc K M).bits p j = true) :
    ∃ q, ValidPath 64 (p ++ j :: q) ∧ (p ++ j :: q).length = D ∧
      ((M (unpath 64 (p ++ j :: q))).isSome = true ∨ unpath 64 (p ++ j :: q) ∈ st) := by
  have hj : j < 64 := by
    simp only [locSpec, Bool.and_eq_true, decide_eq_true_eq] at hb
    exact hb.1.1
  obtain ⟨⟨a, ha⟩, hF⟩ := (S.bits_iff hj).1 hb
  by_cases hbr : p.length + 1 < D
  · rw [cellsOf_branch hbr] at hF
    cases e : loc (p ++ [j]) with
    | none => rw [e] at hF; simp at hF
    | some b =>
      obtain ⟨q, k1, k2, k3⟩ := S.key_or_stale hst (D - (p.length + 1)) (p ++ [j]) b
        (by simp; omega) (by simp) e
      rw [List.append_assoc] at k1 k2 k3
      exact ⟨q, k1, k2, k3⟩
  · have hb' : p.length + 1 = D := by omega
    rw [cellsOf_term hb'] at hF
    cases e : K (p ++ [j]) with
    | none => rw [e] at hF; simp at hF
    | some d =>
      have hvi := ValidPath.append hv hj
      have hli : (p ++ [j]).length = D := by simpa using hb'
      exact ⟨[], hvi, hli, .inl (by rw [S.some_iff hvi hli, e]; rfl)⟩

end Hibit.Dense
