import Verif.Props.MatFail
/-!
# Property C40 for materialized trees: the hierarchy of a tree collected from an inexact expression

`C40_fails_materialized` is one tree whose masks are not exact although its type says so. The theorems
below determine all masks of every such tree, and so when they are exact.
-/
namespace Hibit.Props
open Hibit Hibit.Dense

section
variable {S C α : Type}

/-- The node at `y` can be reached from the root by set bits only (as seen by a cursor). -/
def Reachable (I : Impl S C α) (s : S) (y : List Nat) : Prop :=
  ∀ r i, (r ++ [i]) <+: y → ∃ m, nodeMask I s r = .ok m ∧ m.bit i = true

/-- Every set bit of every mask (as seen by a cursor) leads to a key of `M`. -/
def ExactMasks (I : Impl S C α) (s : S) (M : Nat → Option α) : Prop :=
  ∀ p j m, ValidPath 64 (p ++ [j]) → p.length < I.D → nodeMask I s p = .ok m → m.bit j = true →
    ∃ q, ValidPath 64 (p ++ j :: q) ∧ (p ++ j :: q).length = I.D ∧
      (M (unpath 64 (p ++ j :: q))).isSome = true

variable {I : Impl S C α} {s : S} {M : Nat → Option α}

theorem reachable_iff {T : TreeSpec α} {K : CursorRel C} (L : Lawful I s T K) (hN : I.N = 1)
    {y : List Nat} (hv : ValidPath 64 y) (hl : y.length ≤ I.D) : Reachable I s y ↔ Marked T y := by
  have key : ∀ r i, (r ++ [i]) <+: y → ∃ m, nodeMask I s r = .ok m ∧ ∀ j, m.bit j = T.bits r j := by
    intro r i h
    obtain ⟨z, rfl⟩ := h
    refine nodeMask_spec L ?_ ?_
    · rw [hN]; exact fun x hx => hv x (by simp [hx])
    · simp at hl; omega
  constructor
  · intro h r i hr
    obtain ⟨m, e, hb⟩ := h r i hr
    obtain ⟨m', e', hb'⟩ := key r i hr
    rw [e] at e'; cases e'
    rw [← hb' i]; exact hb
  · intro h r i hr
    obtain ⟨m, e, hb⟩ := key r i hr
    exact ⟨m, e, by rw [hb]; exact h r i hr⟩

end

section
variable {x : Bool} {S C α : Type} {I : Impl S C α} {s : S} {M : Nat → Option α} {t : DT α}

theorem mat_masks (h : IsTree I s M) (hN : I.N = 1) (hex : I.exact = false)
    (h9 : I.D ≤ 9) (hroom : card (64 ^ I.D) M < 2 ^ 32) (ht : materialize I s = .ok t)
    {p : List Nat} (hv : ValidPath 64 p) (hp : p.length < I.D) :
    ∃ m, nodeMask (impl α I.D) t p = .ok m ∧ ∀ j, j < 64 → (m.bit j = true ↔
      if p.length + 1 = I.D then (M (unpath 64 (p ++ [j]))).isSome = true
      else ∃ y, (p ++ [j]) <+: y ∧ ValidPath 64 y ∧ y.length + 1 = I.D ∧ Reachable I s y) := by
  obtain ⟨T, K, L, hc⟩ := h
  have h1 := L.cfg.depth
  have hW : width I.N = 64 := by rw [hN]; rfl
  have X : Src I s T K (restrict (64 ^ I.D) M) := by
    refine ⟨L, hN, h9, fun i hi => ?_, by rw [card_restrict]; exact hroom⟩
    have := hc i (by rw [hW]; exact hi)
    rw [hW] at this
    rw [this, restrict, if_pos hi]
  obtain ⟨hno, hyes⟩ := materialize_sparse_loc X hex (fun k hk => by
    rw [restrict, if_neg (by omega)])
  have hl : LiveS I.D T [] := by
    refine Classical.byContradiction fun hl => ?_
    rw [hno hl] at ht; cases ht
  obtain ⟨t', loc, e, S', hloc, -, -⟩ := hyes hl
  rw [ht] at e; cases e
  have L' := LawfulC.unfix (S'.lawful h1 h9 (e := false) (fun h => by cases h))
  obtain ⟨m, e, hb⟩ := nodeMask_spec L'.toLawful (p := p) hv hp
  rw [nodeMask_exact_irrel] at e
  refine ⟨m, e, fun j hj => ?_⟩
  rw [hb, S'.bits_iff hj]
  have hvj := ValidPath.append hv hj
  split
  · rename_i hlast
    rw [cellsOf_term hlast, KM_eq hvj (by simpa using hlast)]
    have hlt : unpath 64 (p ++ [j]) < 64 ^ I.D := by
      have := unpath_lt hvj
      rwa [show (p ++ [j]).length = I.D by simpa using hlast] at this
    rw [restrict, if_pos hlt]
    constructor
    · rintro ⟨-, hne⟩
      cases hM : M (unpath 64 (p ++ [j])) with
      | none => rw [hM] at hne; simp at hne
      | some d => rfl
    · intro hs
      refine ⟨(hloc p).2 (X.live_of_below ⟨[j], hvj, by simpa using hlast, ?_⟩ hp), ?_⟩
      · rw [restrict, if_pos hlt]; exact hs
      · cases hM : M (unpath 64 (p ++ [j])) with
        | none => rw [hM] at hs; cases hs
        | some d => simp
  · rename_i hbr
    rw [cellsOf_branch (by omega)]
    constructor
    · rintro ⟨-, hne⟩
      cases hlo : loc (p ++ [j]) with
      | none => rw [hlo] at hne; simp at hne
      | some a =>
        obtain ⟨y, y1, y2, y3, y4⟩ := (hloc _).1 ⟨a, hlo⟩
        exact ⟨y, y1, y2, y3, (reachable_iff L hN y2 (by omega)).2 y4⟩
    · rintro ⟨y, y1, y2, y3, y4⟩
      have hlive : LiveS I.D T (p ++ [j]) := ⟨y, y1, y2, y3, (reachable_iff L hN y2 (by omega)).1 y4⟩
      obtain ⟨a, ha⟩ := (hloc _).2 hlive
      exact ⟨(hloc p).2 (hlive.mono (List.prefix_append _ _)), by rw [ha]; simp⟩

/-- **C40** / **C43**: all masks of *every* DenseTree collected from a tree expression without exact
hierarchy. The mask of a terminal node has exactly the bits of the stored keys. The mask of a node above
has exactly the bits leading, in the source and over set bits only, to some terminal node of the source,
whether that terminal node is empty or not. -/
theorem C40_materialized_masks (h : Built x I s M) (hN : I.N = 1) (hex : I.exact = false)
    (h9 : I.D ≤ 9) (hroom : card (64 ^ I.D) M < 2 ^ 32) (ht : materialize I s = .ok t)
    {p : List Nat} (hv : ValidPath 64 p) (hp : p.length < I.D) :
    ∃ m, nodeMask (impl α I.D) t p = .ok m ∧ ∀ j, j < 64 → (m.bit j = true ↔
      if p.length + 1 = I.D then (M (unpath 64 (p ++ [j]))).isSome = true
      else ∃ y, (p ++ [j]) <+: y ∧ ValidPath 64 y ∧ y.length + 1 = I.D ∧ Reachable I s y) :=
  mat_masks (built_isTree h).1 hN hex h9 hroom ht hv hp

/-- **C40**, exact condition: the hierarchy of the collected DenseTree (whose type claims
`EXACT_HIERARCHY`) is exact if and only if the source has no empty terminal node that can be reached
over set bits. -/
theorem C40_materialized_iff (h : Built x I s M) (hN : I.N = 1) (hex : I.exact = false) (h2 : 2 ≤ I.D)
    (h9 : I.D ≤ 9) (hroom : card (64 ^ I.D) M < 2 ^ 32) (ht : materialize I s = .ok t) :
    ExactMasks (impl α I.D) t M ↔
      ∀ y, ValidPath 64 y → y.length + 1 = I.D → Reachable I s y →
        ∃ j, j < 64 ∧ (M (unpath 64 (y ++ [j]))).isSome = true := by
  have masks := fun {p} => mat_masks (p := p) (built_isTree h).1 hN hex h9 hroom ht
  constructor
  · intro hE y hv hl hr
    rcases eq_nil_or_append y with rfl | ⟨r, i, rfl⟩
    · simp at hl; omega
    obtain ⟨hrv, hi⟩ := ValidPath.of_append hv
    have hrl : r.length + 2 = I.D := by simp at hl; omega
    obtain ⟨m, e, hb⟩ := masks hrv (by omega)
    have hbit : m.bit i = true := by
      rw [hb i hi, if_neg (by omega)]
      exact ⟨_, List.prefix_refl _, hv, hl, hr⟩
    obtain ⟨q, q1, q2, q3⟩ := hE r i m hv (by show r.length < I.D; omega) e hbit
    have hq : q.length = 1 := by
      have : (r ++ i :: q).length = I.D := q2
      simp at this; omega
    obtain ⟨j, rfl⟩ := List.length_eq_one_iff.1 hq
    refine ⟨j, q1 j (by simp), ?_⟩
    simpa using q3
  · intro hY p j m hv hp e hbit
    have hp : p.length < I.D := hp
    obtain ⟨hpv, hj⟩ := ValidPath.of_append hv
    obtain ⟨m', e', hb⟩ := masks hpv hp
    rw [e] at e'; cases e'
    rw [hb j hj] at hbit
    split at hbit
    · rename_i hlast
      exact ⟨[], hv, by show (p ++ [j]).length = I.D; simpa using hlast, hbit⟩
    · obtain ⟨y, ⟨z, rfl⟩, y2, y3, y4⟩ := hbit
      obtain ⟨i, hi, hs⟩ := hY _ y2 y3 y4
      refine ⟨z ++ [i], ?_, ?_, ?_⟩
      · have := ValidPath.append y2 hi
        simpa using this
      · show (p ++ j :: (z ++ [i])).length = I.D
        simp at y3 ⊢; omega
      · simpa using hs

end

/-- `intersection(exD, exU)` (content: key 5 only; the only common block is block 0): the condition holds, so the
collected tree is exact. -/
example : ∃ t, materialize (interImpl (Dense.impl Nat 2) (Sparse.impl Nat 1 2)) (exD, exU) = .ok t ∧
    ExactMasks (impl (Nat × Nat) 2) t (interMap exDM exUM) := by
  obtain ⟨t, e1, -⟩ := exMatFail
  refine ⟨t, e1, (C40_materialized_iff
    (.inter (I0 := Dense.impl Nat 2) (I1 := Sparse.impl Nat 1 2) rfl rfl exD_built exU_built) rfl rfl (by decide)
    (by decide) (Nat.lt_of_le_of_lt (card_le _ _) (by decide)) e1).2 ?_⟩
  intro y _ hl hr
  have hl : y.length = 1 := by
    have : y.length + 1 = 2 := hl
    omega
  obtain ⟨i, rfl⟩ := List.length_eq_one_iff.1 hl
  obtain ⟨m, e, hb⟩ := hr [] i (List.prefix_refl _)
  have : nodeMask (interImpl (Dense.impl Nat 2) (Sparse.impl Nat 1 2)) (exD, exU) [] = .ok [1] := by
    decide +kernel
  rw [this] at e; cases e
  have hi : i = 0 := by
    rw [bit_single] at hb
    split at hb
    · rename_i h
      have : ∀ j, j < 64 → (1 : Word).getLsbD j = true → j = 0 := by decide
      exact this i h hb
    · cases hb
  subst hi
  exact ⟨5, by decide, by decide +kernel⟩

/-- The intersection of `{64}` and `{65}` (`C40_fails_materialized`) has the reachable empty terminal node
`[1]`. -/
example : (do
    let t0 ← Dense.default Nat 2
    let a ← Dense.insert 2 t0 64 1
    let b ← Dense.insert 2 t0 65 2
    nodeMask (interImpl (Dense.impl Nat 2) (Dense.impl Nat 2)) (a.tree, b.tree) [] : R Mask) = .ok [2] ∧
    (do
    let t0 ← Dense.default Nat 2
    let a ← Dense.insert 2 t0 64 1
    let b ← Dense.insert 2 t0 65 2
    nodeMask (interImpl (Dense.impl Nat 2) (Dense.impl Nat 2)) (a.tree, b.tree) [1] : R Mask) = .ok [0] := by
  constructor <;> decide +kernel

end Hibit.Props
