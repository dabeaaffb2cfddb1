import Verif.Props.MatAgain
/-!
# Property C84: iteration of trees with arbitrary answers

The bit hierarchy alone bounds an iteration: however wrong (or changing) the answers of a user-written
tree are, iterating it, or an expression over it, ends, and yields no index twice or out of order.
-/
namespace Hibit.Props
open Hibit Hibit.Dense

section
variable {t h : Bool} {S C δ : Type} {I : Impl S C δ} {s : S}

/-- **C84**: the results of successive `next()` calls over an expression with arbitrary answers are
items with strictly ascending indices below `width ^ depth` (at most `width ^ depth` of them), then only
`None`. -/
theorem C84_order (hm : Mixed t true h I s) (fuel n : Nat) (l : List (Option (Nat × δ)))
    (hl : I.iterRun s fuel n = .ok l) :
    ∃ (items : List (Nat × δ)) (m : Nat), l = items.map some ++ List.replicate m none ∧
      (items.map Prod.fst).Pairwise (· < ·) ∧
      (∀ kd ∈ items, kd.1 < (64 * I.N) ^ I.D) ∧ items.length ≤ (64 * I.N) ^ I.D := by
  obtain ⟨items, m, e, hs⟩ := ((mixed_sturdy hm).forget.iter_all fuel n (fun e => by cases e)).2 l hl
  refine ⟨items, m, e, List.Pairwise.sublist hs List.pairwise_lt_range, fun kd hk => ?_, ?_⟩
  · have := hs.subset (List.mem_map_of_mem hk)
    exact List.mem_range.1 this
  · have := hs.length_le
    rw [List.length_map, List.length_range] at this
    exact this

/-- **C84**: so `next()` answers `None` at the latest after `width ^ depth` items, and ever after. -/
theorem C84_fused (hm : Mixed t true h I s) (fuel n : Nat) (l : List (Option (Nat × δ)))
    (hl : I.iterRun s fuel n = .ok l) :
    (∀ j, (64 * I.N) ^ I.D ≤ j → j < l.length → l[j]? = some none) ∧
    ∀ i j, l[i]? = some none → i ≤ j → j < l.length → l[j]? = some none := by
  obtain ⟨items, m, rfl, -, -, hlen⟩ := C84_order hm fuel n l hl
  have key : ∀ j, items.length ≤ j → j < (items.map some ++ List.replicate m none).length →
      (items.map some ++ List.replicate m none)[j]? = some none := by
    intro j h1 h2
    rw [List.length_append, List.length_map, List.length_replicate] at h2
    rw [List.getElem?_append_right (by rw [List.length_map]; exact h1), List.length_map,
      List.getElem?_replicate, if_pos (by omega)]
  refine ⟨fun j h1 h2 => key j (by omega) h2, fun i j h1 h2 h3 => key j ?_ h3⟩
  apply Classical.byContradiction
  intro hc
  have hi : i < items.length := by omega
  rw [List.getElem?_append_left (by rw [List.length_map]; exact hi), List.getElem?_map,
    List.getElem?_eq_getElem hi] at h1
  cases h1

theorem wt_bound {W : Nat} (hW : 2 ≤ W) : ∀ k, W * wt W k ≤ 2 * W ^ (k + 1) - W := by
  have key : ∀ k, wt W k ≤ 2 * W ^ k - 1 := by
    intro k
    induction k with
    | zero => simp [wt]
    | succ k ih =>
      rw [wt]
      have h1 : W * wt W k ≤ W * (2 * W ^ k - 1) := Nat.mul_le_mul_left W ih
      rw [Nat.mul_sub, Nat.mul_one] at h1
      have h2 : W * (2 * W ^ k) = 2 * W ^ (k + 1) := by rw [Nat.pow_succ]; ac_rfl
      rw [h2] at h1
      have h3 : W ≤ W ^ (k + 1) := by
        rw [Nat.pow_succ]
        exact Nat.le_mul_of_pos_left W (Nat.pow_pos (by omega))
      omega
  intro k
  have h1 := Nat.mul_le_mul_left W (key k)
  rw [Nat.mul_sub, Nat.mul_one] at h1
  have h2 : W * (2 * W ^ k) = 2 * W ^ (k + 1) := by rw [Nat.pow_succ]; ac_rfl
  rw [h2] at h1
  exact h1

theorem sturdy_ends (hs : Sturdy true true h I s) :
    (∀ fuel n, 2 * (64 * I.N) ^ I.D ≤ fuel → I.iterRun s fuel n ≠ .error .fuel) ∧
    (∀ k, I.get s k ≠ .error .fuel) ∧
    (I.N = 1 → I.D ≤ 9 → materialize I s ≠ .error .fuel) := by
  obtain ⟨ok, hk⟩ := id hs
  refine ⟨fun fuel n hf => ?_, fun k => (sturdy_get_nub hs k).1.2 rfl,
    fun hN h9 => (materialize_wrong hs hN h9).1.2 rfl⟩
  refine (hs.iter_all fuel n fun _ => ?_).1.2 rfl
  have hD := hk.cfg.depth
  have hW : 2 ≤ width I.N := by
    unfold width
    rcases hk.cfg.words with e | e | e <;> omega
  have h1 := wt_bound hW (I.D - 1)
  rw [Nat.sub_add_cancel hD] at h1
  have h2 : 2 * width I.N ^ I.D ≤ fuel := hf
  have h3 : width I.N ≤ width I.N ^ I.D := by
    have := Nat.pow_le_pow_right (show 0 < width I.N by omega) hD
    rwa [Nat.pow_one] at this
  omega

/-- **C84**: if the methods of the user-written trees come back, so do the crate's: a lookup, every
`next()` within `2 * width ^ depth` rounds of its search loop, and materialization. -/
theorem C84_ends (hm : Mixed true true h I s) :
    (∀ fuel n, 2 * (64 * I.N) ^ I.D ≤ fuel → I.iterRun s fuel n ≠ .error .fuel) ∧
    (∀ k, I.get s k ≠ .error .fuel) ∧
    (I.N = 1 → I.D ≤ 9 → materialize I s ≠ .error .fuel) := sturdy_ends (mixed_sturdy hm)

end

/-- The hypotheses are met by a tree whose masks, data and cursor answers change from call to call, and
which answers differently to `data` and to the cursor. -/
example : Mixed true true false (liar 1 2) () ∧
    (liar 1 2).iterRun () 8192 3 = .ok [some (0, 2), some (1, 3), some (2, 4)] ∧
    Mixed true true true (multiUnionImpl (liar 1 2)) [(), ()] :=
  ⟨.user (liar_tame liar_cfg) fun _ => liar_returns, by decide +kernel,
    .multiUnion liar_cfg fun _ _ => .user (liar_tame liar_cfg) fun _ => liar_returns⟩

end Hibit.Props
