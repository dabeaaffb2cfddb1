import Verif.Interface
import Verif.IterLemmas
/-!
# The denotation of a container storing a finite map

Shared by `DenseTree` and `SparseTree`: the content is the map, and a bit is set iff some stored
key lies below it.
-/
namespace Hibit

/-- Some key stored in `M` has coordinates extending `p`. -/
def Below {δ : Type} (W D : Nat) (M : Nat → Option δ) (p : List Nat) : Prop :=
  ∃ q, ValidPath W (p ++ q) ∧ (p ++ q).length = D ∧ (M (unpath W (p ++ q))).isSome

open Classical in
/-- The denotation of an exact container holding the map `M`. -/
noncomputable def contentSpec {δ : Type} (W D : Nat) (M : Nat → Option δ) : TreeSpec δ where
  bits p i := decide (Below W D M (p ++ [i]))
  content p := M (unpath W p)

theorem contentSpec_wf {δ : Type} (W D : Nat) (M : Nat → Option δ) (e : Bool) :
    SpecWf W D e (contentSpec W D M) where
  bits_lt p i h := by
    simp only [contentSpec, decide_eq_true_eq] at h
    obtain ⟨q, h1, _⟩ := h
    exact h1 i (by simp)
  terminal p i hp hl hi := by
    simp only [contentSpec]
    rw [Bool.eq_iff_iff]
    simp only [decide_eq_true_eq]
    constructor
    · rintro ⟨q, h1, h2, h3⟩
      have : q = [] := by
        simp only [List.length_append, List.length_singleton] at h2
        exact List.length_eq_zero_iff.1 (by omega)
      subst this
      simpa using h3
    · intro h
      exact ⟨[], by simpa using ValidPath.append hp hi, by simpa using hl, by simpa using h⟩
  upward p i j hp hi hl h := by
    simp only [contentSpec, decide_eq_true_eq] at h ⊢
    obtain ⟨q, h1, h2, h3⟩ := h
    exact ⟨j :: q, by simpa using h1, by simpa using h2, by simpa using h3⟩
  exact_child _ p i hp hl h := by
    simp only [contentSpec, decide_eq_true_eq] at h ⊢
    obtain ⟨q, h1, h2, h3⟩ := h
    cases q with
    | nil => simp at h2; omega
    | cons j q => exact ⟨j, q, by simpa using h1, by simpa using h2, by simpa using h3⟩

theorem contentSpec_bits_iff {δ : Type} {W D : Nat} {M : Nat → Option δ} {p : List Nat} {i : Nat} :
    (contentSpec W D M).bits p i = true ↔ Below W D M (p ++ [i]) := by
  simp [contentSpec]

end Hibit
