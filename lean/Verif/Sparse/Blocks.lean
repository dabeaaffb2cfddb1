import Verif.Sparse.History
/-!
# SparseTree: the storage of the levels; capacities
-/
namespace Hibit.Sparse
open Hibit

/-- Specification: the number of entries of level `n` (blocks, or values for `n` the depth) that fit,
including the reserved entry 0: 256 below the root, 65536 one level further down, then `2^32`. -/
def idxCap (n : Nat) : Nat :=
  match n with
  | 0 => 256
  | 1 => 256
  | 2 => 65536
  | _ + 3 => 4294967296

theorem idxCap_eq (n : Nat) : idxCap (n + 1) = 2 ^ idxBits n := by
  match n with
  | 0 => decide
  | 1 => decide
  | n + 2 => simp [idxCap, idxBits]

theorem idxCap_ok (D : Nat) : CapOk D idxCap :=
  ⟨fun n h _ => by
      obtain ⟨m, rfl⟩ : ∃ m, n = m + 1 := ⟨n - 1, by omega⟩
      rw [idxCap_eq]; exact Nat.pow_pos (by decide),
    fun n _ => by rw [idxCap_eq]; exact Nat.le_refl _⟩

/-- The largest number of level-`n` ranges in use at the same time during a history. -/
def peak {α : Type} (W D n : Nat) (dflt : Option α) (M : Nat → Option α) : List (Op α) → Nat
  | [] => groups W D n M
  | op :: ops => max (groups W D n M) (peak W D n dflt (op.spec dflt M).1 ops)

section
variable {α : Type} {N D : Nat} {cap : Nat → Nat} {dflt : Option α} {Ph : List Nat} {t : ST α}
  {M : Nat → Option α} {B : List Nat → Nat}

theorem always_peak (W D : Nat) (b : Nat → Nat) : ∀ (ops : List (Op α)) (M : Nat → Option α),
    (∀ n, peak W D n dflt M ops ≤ b n) →
    Always dflt (Fits W D fun n => 1 + b n) M ops := by
  intro ops
  induction ops with
  | nil =>
    intro M h n _ _
    exact Nat.add_le_add_left (h n) 1
  | cons op ops ih =>
    intro M h
    have h' : ∀ n, max (groups W D n M) (peak W D n dflt (op.spec dflt M).1 ops) ≤ b n := h
    exact ⟨fun n _ _ => Nat.add_le_add_left (Nat.le_trans (Nat.le_max_left _ _) (h' n)) 1,
      ih _ fun n => Nat.le_trans (Nat.le_max_right _ _) (h' n)⟩

theorem peak_le {W D n : Nat} {cap : Nat → Nat} (h1 : 1 ≤ n) (hn : n ≤ D) :
    ∀ (ops : List (Op α)) (M : Nat → Option α), Always dflt (Fits W D cap) M ops →
    1 + peak W D n dflt M ops ≤ cap n := by
  intro ops
  induction ops with
  | nil => intro M h; exact h n h1 hn
  | cons op ops ih =>
    intro M h
    have a := h.1 n h1 hn
    have b := ih _ h.2
    show 1 + max _ _ ≤ _
    omega

/-- A non-zero child index belongs to the block of a path. -/
theorem SS.slot_live (S : SS N D cap dflt Ph t M B) {n b i v : Nat} {L : Level} {blk : Block}
    (hL : t.levels[n]? = some L) (hb : L.blocks[b]? = some blk) (hi : blk.idx[i]? = some v)
    (hv : v ≠ 0) : ∃ p, p.length = n ∧ B p = b ∧ B (p ++ [i]) = v := by
  have K := S.lv.level n L hL
  have zeros : blk.idx = List.replicate (width N) 0 → False := by
    intro e
    rw [e, List.getElem?_replicate] at hi
    split at hi
    · simp at hi; exact hv hi.symm
    · cases hi
  have live : ∀ p, ValidPath (width N) p → p.length = n → (n = 0 ∨ B p ≠ 0) → B p = b →
      ∃ p, p.length = n ∧ B p = b ∧ B (p ++ [i]) = v := by
    intro p hvp hp hor hB
    obtain ⟨b', h1, h2⟩ := K.node p hvp hp hor
    rw [hB, hb] at h1
    cases h1
    have hlt : i < width N := by
      rw [← h2.ilen]; exact (List.getElem?_eq_some_iff.1 hi).1
    have := (h2.slot i hlt (by simp)).1
    rw [hi] at this
    exact ⟨p, hp, hB, by simpa using this.symm⟩
  by_cases hn : n = 0
  · have h1 := K.one hn
    have h2 := (List.getElem?_eq_some_iff.1 hb).1
    have : b = 0 := by omega
    subst this
    exact live [] (ValidPath.nil) (by simp [hn]) (.inl hn) S.lv.root
  · by_cases hz : b = 0
    · subst hz
      rw [K.zero hn] at hb
      cases hb
      exact (zeros rfl).elim
    · obtain ⟨fl, h1, -, -, h4⟩ := K.free
      rcases h4 b (by omega) (List.getElem?_eq_some_iff.1 hb).1 with h | ⟨p, hp, hB⟩
      · exfalso
        have : ∀ {fl : List Nat} {r : Word}, Chain N L.blocks fl r → b ∈ fl →
            ∃ next, L.blocks[b]? = some (freeBlock N next) := by
          intro fl
          induction fl with
          | nil => intro r _ h; simp at h
          | cons f fs ih =>
            rintro r ⟨-, -, next, g1, g2⟩ h
            simp only [List.mem_cons] at h
            rcases h with rfl | h
            · exact ⟨next, g1⟩
            · exact ih g2 h
        obtain ⟨next, e⟩ := this h1 h
        rw [hb] at e
        cases e
        exact zeros rfl
      · exact live p (S.lv.valid p (by omega)).1 hp (.inr (by omega)) hB

end

end Hibit.Sparse
