import Verif.Dense.Footprint
import Verif.Props.Dense
/-!
# Property C53: what a DenseTree keeps allocated

`rangesHit D n M` is the specification: the number of aligned key ranges of size `64^(D-n)` that
hold a stored key.
-/
namespace Hibit.Props
open Hibit Hibit.Dense

variable {α : Type}

/-- Number of `x` such that a stored key lies in `[x * 64^(D-n), (x+1) * 64^(D-n))`. -/
def rangesHit (D n : Nat) (M : Nat → Option α) : Nat :=
  ((List.range (64 ^ n)).filter fun x => (List.range (64 ^ D)).any fun k =>
    (M k).isSome && decide (x * 64 ^ (D - n) ≤ k ∧ k < (x + 1) * 64 ^ (D - n))).length

theorem rangesHit_eq (D n : Nat) (M : Nat → Option α) :
    rangesHit D n M = Sparse.groups 64 D n M := by
  unfold rangesHit Sparse.groups
  congr 1
  apply List.filter_congr
  intro x _
  rw [Bool.eq_iff_iff, Sparse.groups_mem]
  simp only [List.any_eq_true, List.mem_range, Bool.and_eq_true, decide_eq_true_eq]
  have hp : 0 < 64 ^ (D - n) := Nat.pow_pos (by decide)
  constructor
  · rintro ⟨k, h1, h2, h3, h4⟩
    refine ⟨k, h1, h2, ?_⟩
    rw [Nat.div_eq_iff hp]
    have := Nat.add_mul x 1 (64 ^ (D - n))
    omega
  · rintro ⟨k, h1, h2, h3⟩
    rw [Nat.div_eq_iff hp] at h3
    have := Nat.add_mul x 1 (64 ^ (D - n))
    exact ⟨k, h1, h2, by omega, by omega⟩

/-- **C53**: after any supported history the blocks allocated by the tree are, without repetition:
the root, and for every level below it one node per aligned key range that holds a stored key (so
the nodes of removed keys have been freed); no node has more than 128 slots; and the value array
holds exactly one slot per stored element besides the sentinel. -/
theorem C53_dense_footprint {D : Nat} {ops : List (Op α)} (h : DenseHistory D ops) {t : DT α}
    (hr : DenseReached D ops t) :
    let M := (specRun emptyMap ops).1
    (∃ as : List Nat, as.Nodup ∧ (∀ a, a ∈ as ↔ (t.heap.node a).isSome = true) ∧
      as.length = 1 + ((List.range (D - 1)).map fun m => rangesHit D (m + 1) M).sum ∧
      ∀ a n, t.heap.node a = some n → n.len ≤ n.cap ∧ n.cells.length = n.cap ∧ n.cap ≤ 128) ∧
    t.data.length = 1 + card (64 ^ D) M ∧ t.keys.length = 1 + card (64 ^ D) M := by
  intro M
  have R := h.rep hr
  refine ⟨?_, ?_, ?_⟩
  · obtain ⟨as, h1, h2, h3, h4⟩ := R.footprint h.depth_pos (fun _ => trivial)
    exact ⟨as, h1, h2, by simpa only [rangesHit_eq] using h3, h4⟩
  · rw [R.card_eq, Nat.add_comm]
  · have e := R.card_eq
    obtain ⟨loc, K, S⟩ := R
    rw [S.data.len, e, Nat.add_comm]

/-- The allocated nodes of `exD`: the root 3 and one node for each of the blocks of 5, 64, 200. -/
example : DenseReached 2 exOps exD ∧
    (List.range exD.heap.next).filter (fun a => (exD.heap.node a).isSome) = [1, 3, 4, 5] ∧
    exD.data.length = 4 := ⟨exD_reached, by decide +kernel, by decide +kernel⟩

/-- **C53**, bound: at most one node per stored element and level besides the root. -/
theorem C53_node_bound {D : Nat} {ops : List (Op α)} (h : DenseHistory D ops) {t : DT α}
    (hr : DenseReached D ops t) {as : List Nat} (hn : as.Nodup)
    (ha : ∀ a ∈ as, (t.heap.node a).isSome = true) :
    as.length ≤ 1 + (D - 1) * card (64 ^ D) (specRun emptyMap ops).1 := by
  obtain ⟨⟨bs, h1, h2, h3, -⟩, -⟩ := C53_dense_footprint h hr
  have : as.length ≤ bs.length :=
    List.Nodup.length_le_of_subset hn fun a h => (h2 a).2 (ha a h)
  have key : ∀ n, ((List.range n).map fun m =>
      rangesHit D (m + 1) (specRun emptyMap ops).1).sum ≤
        n * card (64 ^ D) (specRun emptyMap ops).1 := by
    intro n
    induction n with
    | zero => simp
    | succ n ih =>
      rw [List.range_succ, List.map_append, List.sum_append]
      have := Sparse.groups_le_card 64 D (n + 1) (specRun emptyMap ops).1
      have e := Nat.add_mul n 1 (card (64 ^ D) (specRun emptyMap ops).1)
      simp only [List.map_cons, List.map_nil, List.sum_cons, List.sum_nil, rangesHit_eq] at ih ⊢
      omega
  have := key (D - 1)
  omega

example : [1, 3, 4, 5].length ≤ 1 + (2 - 1) * card (64 ^ 2) (specRun emptyMap exOps).1 :=
  C53_node_bound exOps_history exD_reached (by decide) (by decide +kernel)

/-- **C53**, after removing everything only the root is left. -/
theorem C53_empty {D : Nat} {ops : List (Op α)} (h : DenseHistory D ops) {t : DT α}
    (hr : DenseReached D ops t) (he : ∀ k, k < 64 ^ D → (specRun emptyMap ops).1 k = none) :
    ∃ a, ∀ b, (t.heap.node b).isSome = true ↔ b = a := by
  obtain ⟨⟨bs, h1, h2, h3, -⟩, -⟩ := C53_dense_footprint h hr
  have hb := C53_node_bound h hr h1 fun a h => (h2 a).1 h
  have h0 : card (64 ^ D) (specRun emptyMap ops).1 = 0 := by
    unfold card
    rw [List.length_eq_zero_iff, List.eq_nil_iff_forall_not_mem]
    intro k hk
    rw [mem_keysOf] at hk
    rw [he k hk.1] at hk
    simp at hk
  rw [h0] at hb
  have : bs.length = 1 := by omega
  obtain ⟨a, rfl⟩ := List.length_eq_one_iff.1 this
  exact ⟨a, fun b => by rw [← h2 b]; simp⟩

/-- The hypotheses are met: the keys 5, 64 and 200 left by a concrete history of depth 2 lie in three
ranges of 64 keys, so four nodes are allocated. -/
example : DenseHistory 2 exOps ∧
    1 + ((List.range (2 - 1)).map fun m => rangesHit 2 (m + 1) (specRun emptyMap exOps).1).sum = 4 :=
  ⟨exOps_history, by decide +kernel⟩

/-- `C53_empty` applies to a history that removes what it inserted. -/
example : DenseHistory 2 [Op.insert 5 50, .insert 4095 1, .remove 5, .remove 4095] ∧
    ∀ k, k < 64 ^ 2 →
      (specRun emptyMap [Op.insert 5 50, .insert 4095 1, .remove 5, .remove 4095]).1 k = none := by
  refine ⟨.of_depth (by decide) (by decide) ?_, ?_⟩
  · intro op h
    simp only [List.mem_cons, List.not_mem_nil, or_false] at h
    rcases h with rfl | rfl | rfl | rfl <;> simp [Op.InRange]
  · intro k _
    simp only [specRun, Op.spec, put, emptyMap]
    by_cases h1 : k = 4095 <;> by_cases h2 : k = 5 <;> simp [h1, h2]

end Hibit.Props
