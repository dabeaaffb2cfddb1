import Verif.Basic
/-!
# Lists: small lemmas on paths
-/
namespace Hibit

theorem append_singleton_inj {α : Type} {p q : List α} {i j : α} :
    p ++ [i] = q ++ [j] ↔ p = q ∧ i = j := by
  constructor
  · intro h
    have := List.append_inj' h rfl
    exact ⟨this.1, by simpa using this.2⟩
  · rintro ⟨rfl, rfl⟩; rfl

theorem eq_nil_or_append {α : Type} (p : List α) : p = [] ∨ ∃ q i, p = q ++ [i] := by
  rcases List.eq_nil_or_concat p with h | ⟨q, i, h⟩
  · exact .inl h
  · exact .inr ⟨q, i, by simpa using h⟩


theorem take_succ_of_getElem? {α : Type} {l : List α} {n : Nat} {a : α} (h : l[n]? = some a) :
    l.take (n + 1) = l.take n ++ [a] := by
  obtain ⟨hn, rfl⟩ := List.getElem?_eq_some_iff.1 h
  exact List.take_succ_eq_append_getElem hn

theorem all_some {α : Type} {l : List (Option α)} (h : ∀ d, d < l.length → ∃ v, l[d]? = some (some v)) :
    ∃ vs : List α, l = vs.map some := by
  induction l with
  | nil => exact ⟨[], rfl⟩
  | cons a l ih =>
    obtain ⟨v, hv⟩ := h 0 (by simp)
    simp at hv
    obtain ⟨vs, hvs⟩ := ih (fun d hd => by
      obtain ⟨v, hv⟩ := h (d + 1) (by simpa using hd)
      exact ⟨v, by simpa using hv⟩)
    exact ⟨v :: vs, by simp [hv, hvs]⟩

end Hibit
