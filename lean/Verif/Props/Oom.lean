import Verif.Dense.OomMat
import Verif.Props.Cost
/-!
# Property C71: what a DenseTree does when the allocator refuses

The claim a user expects (an operation that cannot get memory fails in a defined way) is false: no result of
`alloc` or `realloc` is checked. Here: exactly when that matters.

Specification: `ok c` says whether the allocator serves the `c`-th request made for this tree.
-/
namespace Hibit.Props
open Hibit Hibit.Dense

variable {α : Type}

/-- The whole life of a tree on an allocator that serves the request number `c` iff `ok c`. -/
def lifeOn (ok : Nat → Bool) (D : Nat) (ops : List (Op α)) : R (DT α × List (Option α × List α)) :=
  defaultF α ok D >>= fun t => runF ok D t ops

/-- **C71**, the true part: after any supported history, where `n` requests are needed in all, the program
behaves exactly like the map if the allocator serves these `n` requests, whatever it would do later; if it
refuses any one of them, the behaviour is undefined. -/
theorem C71_oom_partial {D : Nat} {ops : List (Op α)} (h : DenseHistory D ops) {t : DT α}
    (hr : DenseReached D ops t) (ok : Nat → Bool) :
    ((∀ c, c < allocCalls t → ok c = true) → lifeOn ok D ops = .ok (t, (specRun emptyMap ops).2)) ∧
    (∀ c, c < allocCalls t → ok c = false → lifeOn ok D ops = .error .ub) := by
  obtain ⟨t0, t1, e0, e1, -⟩ := h.reach
  have ht : t = t1 := by
    obtain ⟨u0, outs, f0, f1⟩ := hr
    rw [e0] at f0; cases f0
    rw [e1] at f1; cases f1; rfl
  subst ht
  have g : Guard ok ⟨fun _ => none, 0⟩ (fun r : DT α × _ => r.1.heap)
      (Dense.default α D >>= fun t => run D t ops) (lifeOn ok D ops) :=
    Guard.bind (default_guard α D) fun t _ => run_guard h.depth_pos h.depth_le ops t
  obtain ⟨-, g1, g2⟩ := g (t, (specRun emptyMap ops).2) (by rw [e0]; exact e1)
  exact ⟨fun hok => g1 fun c _ hc => hok c hc, fun c hc => g2 c (Nat.zero_le c) hc⟩

/-- **C71**: once the allocator has stopped serving altogether, `remove`, `get`, the mutation of values, and
`insert` and `get_or_insert` of a stored key still work as usual. -/
theorem C71_no_alloc {D : Nat} {ops : List (Op α)} {op : Op α} (h : DenseHistory D (ops ++ [op]))
    {t : DT α} (hr : DenseReached D ops t)
    (hop : ∀ k, (∃ v, op = .insert k v) ∨ (∃ d g, op = .getOrInsert k d g) →
      (specRun emptyMap ops).1 k ≠ none) :
    ∃ t', stepF (fun _ => false) D t op = .ok (t', (op.spec (specRun emptyMap ops).1).2) ∧
      step D t op = .ok (t', (op.spec (specRun emptyMap ops).1).2) := by
  obtain ⟨t', e, -⟩ := step_spec (h.init.rep hr) (h.okDepth op (by simp)) h.depth_le
    (h.inRange op (by simp)) (bounded_prefix ops _ h.bounded).2
  refine ⟨t', ?_, e⟩
  refine (step_guard (ok := fun _ => false) h.depth_pos h.depth_le t op _ e).2.1 fun c h1 h2 => ?_
  have hn : t'.heap.next = t.heap.next := by
    have hin := h.inRange op (by simp)
    cases op with
    | insert k v =>
      exact congrArg Heap.next ((C67_insert h.init hr hin (.inl ⟨v, rfl⟩) e).1 (hop k (.inl ⟨v, rfl⟩)))
    | getOrInsert k d g =>
      exact congrArg Heap.next ((C67_insert h.init hr hin (.inr ⟨d, g, rfl⟩) e).1
        (hop k (.inr ⟨d, g, rfl⟩)))
    | remove k => exact (C67_remove h.depth_pos h.depth_le e).1
    | get k => exact congrArg Heap.next (C67_rest (.inl ⟨k, rfl⟩) e).1
    | mutValues g => exact congrArg Heap.next (C67_rest (.inr ⟨g, rfl⟩) e).1
  simp only at h2
  omega

/-- **C71** fails: with the allocator refusing, `insert` and `get_or_insert` of a key none of whose 64
neighbours is stored is undefined behaviour, after every supported history; and so is the construction of
the empty tree. -/
theorem C71_fails {D : Nat} {ops : List (Op α)} {op : Op α} (h : DenseHistory D (ops ++ [op]))
    {t : DT α} (hr : DenseReached D ops t) (h2 : 2 ≤ D) {k : Nat}
    (hop : (∃ v, op = .insert k v) ∨ ∃ d g, op = .getOrInsert k d g)
    (hempty : ∀ j, j / 64 = k / 64 → (specRun emptyMap ops).1 j = none) :
    stepF (fun _ => false) D t op = .error .ub ∧ defaultF α (fun _ => false) D = .error .ub := by
  obtain ⟨t', e, -⟩ := step_spec (h.init.rep hr) (h.okDepth op (by simp)) h.depth_le
    (h.inRange op (by simp)) (bounded_prefix ops _ h.bounded).2
  have hk : k < 64 ^ D := by
    have hin := h.inRange op (by simp)
    rcases hop with ⟨v, rfl⟩ | ⟨d, g, rfl⟩ <;> exact hin
  have hc := (C67_insert h.init hr hk hop e).2.1 (hempty k rfl)
  have h1 : 1 ≤ emptyRanges D k (specRun emptyMap ops).1 := by
    unfold emptyRanges
    apply List.length_pos_of_mem (a := D - 2)
    rw [List.mem_filter, List.mem_range]
    refine ⟨by omega, ?_⟩
    rw [List.all_eq_true]
    intro j _
    have : D - 1 - (D - 2) = 1 := by omega
    rw [this, Nat.pow_one]
    by_cases hj : j / 64 = k / 64
    · rw [hempty j hj]; rfl
    · simp [hj]
  unfold allocCalls at hc
  constructor
  · exact (step_guard (ok := fun _ => false) h.depth_pos h.depth_le t op _ e).2.2 t.heap.next
      (Nat.le_refl _) (by simp only; omega) rfl
  · obtain ⟨t0, u, e0, -⟩ := h.reach
    refine (default_guard (ok := fun _ => false) α D t0 e0).2.2 0 (Nat.le_refl _) ?_ rfl
    have e0' := e0
    unfold Dense.default at e0'
    have hD : ¬ D = 1 := by omega
    simp only [if_neg hD, bind_assoc_R] at e0'
    obtain ⟨x, -, e0'⟩ := bind_inv e0'
    obtain ⟨⟨h', a⟩, en, e0'⟩ := bind_inv e0'
    cases e0'
    have := (nodeNew_inv en).2.1
    simp only at this ⊢
    omega

/-- **C71** for `materialize`: whenever collecting any tree `s` (of any implementation of the interface, in
particular every tree expression of C42 and C43) succeeds on an allocator that serves everything, with `n`
requests for nodes in all, then on another allocator it gives the same tree if the first `n` requests are
served, and is undefined behaviour if any of them is refused. -/
theorem C71_materialize_partial {S C : Type} {I : Impl S C α} {s : S} {t : DT α}
    (h : materialize I s = .ok t) (ok : Nat → Bool) :
    ((∀ c, c < allocCalls t → ok c = true) → materializeF ok I s = .ok t) ∧
    (∀ c, c < allocCalls t → ok c = false → materializeF ok I s = .error .ub) := by
  obtain ⟨-, g1, g2⟩ := materialize_guard (ok := ok) I s t h
  exact ⟨fun hok => g1 fun c _ hc => hok c hc, fun c hc => g2 c (Nat.zero_le c) hc⟩

/-! ### The hypotheses are met -/

/-- Collecting `exD` into a new tree takes four nodes. -/
example : (materialize (Dense.impl Nat 2) exD).map allocCalls = .ok 4 ∧
    (materializeF (fun c => decide (c < 4)) (Dense.impl Nat 2) exD).map allocCalls = .ok 4 ∧
    (materializeF (fun c => decide (c ≠ 3)) (Dense.impl Nat 2) exD).map allocCalls = .error .ub := by
  decide +kernel

/-- `exOps` makes six requests: refusing the seventh is harmless, refusing the third is not. -/
example : allocCalls exD = 6 ∧ lifeOn (fun c => decide (c < 6)) 2 exOps =
    .ok (exD, (specRun emptyMap exOps).2) ∧ lifeOn (fun c => decide (c ≠ 2)) 2 exOps = .error .ub := by
  have h6 : allocCalls exD = 6 := by decide +kernel
  refine ⟨h6, (C71_oom_partial exOps_history exD_reached _).1 fun c hc => ?_,
    (C71_oom_partial exOps_history exD_reached _).2 2 (by omega) rfl⟩
  rw [h6] at hc
  simpa using hc

theorem exOps_snoc {op : Op Nat} (h : op.InRange (64 ^ 2)) : DenseHistory 2 (exOps ++ [op]) := by
  refine .of_depth (by decide) (by decide) fun o ho => ?_
  rw [List.mem_append, List.mem_singleton] at ho
  rcases ho with ho | rfl
  · exact exOps_history.inRange o ho
  · exact h

/-- 5 is stored; nothing is stored in 4032..4095. -/
example : (∃ t', stepF (fun _ => false) 2 exD (.insert 5 1) = .ok (t', none, [56])) ∧
    stepF (fun _ => false) 2 exD (.insert 4095 1) = .error .ub := by
  constructor
  · obtain ⟨t', e, -⟩ := C71_no_alloc (exOps_snoc (op := .insert 5 1) (by simp [Op.InRange])) exD_reached
      (fun k hk => by
        rcases hk with ⟨v, e⟩ | ⟨d, g, e⟩
        · injection e with e1 e2; subst e1; decide +kernel
        · cases e)
    exact ⟨t', e⟩
  · refine (C71_fails (exOps_snoc (op := .insert 4095 1) (by simp [Op.InRange])) exD_reached (by decide)
      (.inl ⟨1, rfl⟩) fun j hj => ?_).1
    have : ∀ i < 64, (specRun emptyMap exOps).1 (4032 + i) = none := by decide +kernel
    have h1 := this (j - 4032) (by omega)
    rwa [show 4032 + (j - 4032) = j by omega] at h1

end Hibit.Props
