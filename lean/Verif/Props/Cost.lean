import Verif.Dense.Cost
import Verif.Props.Dense
/-!
# Properties C67 and C68: what one DenseTree operation costs in memory traffic

Specification: `emptyRanges D k M`, `allocCalls`, `ChangedAtMost`.
-/
namespace Hibit.Props
open Hibit Hibit.Dense

variable {α : Type}

/-- The number of node allocations and reallocations made since the tree was created: the heap
model never reuses an address and counts `realloc` as one call. -/
def allocCalls (t : DT α) : Nat := t.heap.next

/-- Of the aligned key ranges of size `64`, `64^2`, ..., `64^(D-1)` around `k`, how many hold no
stored key. -/
def emptyRanges (D k : Nat) (M : Nat → Option α) : Nat :=
  ((List.range (D - 1)).filter fun m => (List.range (64 ^ D)).all fun j =>
    (M j).isNone || decide (j / 64 ^ (D - 1 - m) ≠ k / 64 ^ (D - 1 - m))).length

/-- Of the blocks ever allocated for `t`, all but at most `n` are the same in `t'`: neither written
nor freed. -/
def ChangedAtMost (n : Nat) (t t' : DT α) : Prop :=
  ∃ as : List Nat, as.length ≤ n ∧
    ∀ a, a < t.heap.next → a ∉ as → t'.heap.node a = t.heap.node a

theorem emptyRanges_le (D k : Nat) (M : Nat → Option α) : emptyRanges D k M ≤ D - 1 := by
  have := List.length_filter_le (fun m => (List.range (64 ^ D)).all fun j =>
    (M j).isNone || decide (j / 64 ^ (D - 1 - m) ≠ k / 64 ^ (D - 1 - m))) (List.range (D - 1))
  simpa [emptyRanges] using this

theorem missing_eq {D : Nat} {t : DT α} {M : Nat → Option α} {loc K : List Nat → Option Nat}
    (S : DS AllNodes D t M loc K) {k : Nat} (hk : k < 64 ^ D) :
    missing loc (path 64 D k) (D - 1) = emptyRanges D k M := by
  unfold missing emptyRanges
  congr 1
  apply List.filter_congr
  intro m hm
  rw [List.mem_range] at hm
  rw [Sparse.take_path hk (by omega)]
  have h := S.live_iff (fun _ => trivial) (n := m + 1) (x := k / 64 ^ (D - (m + 1))) (by omega)
    (by omega) (Sparse.div_lt_pow hk (by omega))
  have e : D - 1 - m = D - (m + 1) := by omega
  rw [e]
  rw [Bool.eq_iff_iff, ← Option.not_isSome, Bool.not_eq_true', h, ← Bool.not_eq_true,
    Sparse.groups_mem, List.all_eq_true]
  constructor
  · intro hne j hj
    rw [List.mem_range] at hj
    cases hM : M j with
    | none => rfl
    | some v =>
      simp only [Option.isNone_some, Bool.false_or, decide_eq_true_eq]
      intro e
      exact hne ⟨j, hj, by rw [hM]; rfl, e⟩
  · rintro hall ⟨j, hj, hs, e⟩
    have := hall j (List.mem_range.2 hj)
    simp only [Bool.or_eq_true, decide_eq_true_eq] at this
    rcases this with h | h
    · rw [← Option.not_isSome, hs] at h; cases h
    · exact h e

/-- **C67**, `insert` and `get_or_insert`: after any supported history the operation on a stored key
leaves all nodes alone; on a new key it makes one allocation for each of the key's ranges that was
empty and at most one reallocation, so never more than the depth; and it changes at most two of the
existing blocks. -/
theorem C67_insert {D : Nat} {ops : List (Op α)} (h : DenseHistory D ops) {t : DT α}
    (hr : DenseReached D ops t) {k : Nat} (hk : k < 64 ^ D) {op : Op α}
    (hop : (∃ v, op = .insert k v) ∨ ∃ d g, op = .getOrInsert k d g) {t' : DT α}
    {o : Option α × List α} (he : step D t op = .ok (t', o)) :
    let M := (specRun emptyMap ops).1
    (M k ≠ none → t'.heap = t.heap) ∧
    (M k = none → allocCalls t + emptyRanges D k M ≤ allocCalls t' ∧
      allocCalls t' ≤ allocCalls t + emptyRanges D k M + 1) ∧
    allocCalls t' ≤ allocCalls t + D ∧ ChangedAtMost 2 t t' := by
  intro M
  obtain ⟨loc, K, S⟩ := h.rep hr
  have hshape : ∃ ins v out, getOrInsertImpl D t k ins v = .ok out ∧ t'.heap = out.tree.heap := by
    rcases hop with ⟨v, rfl⟩ | ⟨d, g, rfl⟩
    · simp only [step, Dense.insert] at he
      obtain ⟨out, e1, he⟩ := bind_inv he
      obtain ⟨i, e2, e1⟩ := bind_inv e1
      rw [indexFrom_ok h.depth_le, if_pos hk] at e2
      cases e2
      cases he
      exact ⟨_, _, out, e1, rfl⟩
    · simp only [step, getOrInsert] at he
      obtain ⟨out, e1, he⟩ := bind_inv he
      obtain ⟨i, e2, e1⟩ := bind_inv e1
      rw [indexFrom_ok h.depth_le, if_pos hk] at e2
      cases e2
      obtain ⟨⟨t2, v⟩, e3, he⟩ := bind_inv he
      cases he
      refine ⟨_, _, out, e1, ?_⟩
      unfold writeRef at e3
      obtain ⟨_, -, e3⟩ := bind_inv e3
      obtain ⟨_, -, e3⟩ := bind_inv e3
      obtain ⟨_, -, e3⟩ := bind_inv e3
      cases e3
      rfl
  obtain ⟨ins, v, out, e1, eh⟩ := hshape
  obtain ⟨c1, c2, -⟩ := S.insert_cost h.depth_pos h.depth_le hk e1
  rw [missing_eq S hk] at c2
  rw [← eh] at c1 c2
  have hle := emptyRanges_le D k M
  have hD := h.depth_pos
  unfold allocCalls ChangedAtMost
  show (M k ≠ none → _) ∧ (M k = none → _) ∧ _
  cases hM : M k with
  | some x =>
    have := c1 x hM
    exact ⟨fun _ => this, (fun e => by cases e), by rw [this]; omega, [], by simp, fun _ _ _ => by rw [this]⟩
  | none =>
    obtain ⟨as, g, a1, a2, a3, a4⟩ := c2 hM
    change t'.heap.next = t.heap.next + emptyRanges D k M + g at a3
    exact ⟨fun e => absurd rfl e, fun _ => ⟨by omega, by omega⟩, by omega, as, a1, a4⟩

/-- **C67**, `remove`: no allocation, and at most `D + 1` blocks are written or freed. -/
theorem C67_remove {D : Nat} (h1 : 1 ≤ D) (h9 : D ≤ 9) {t t' : DT α} {k : Nat}
    {o : Option α × List α} (he : step D t (.remove k) = .ok (t', o)) :
    allocCalls t' = allocCalls t ∧ ChangedAtMost (D + 1) t t' := by
  simp only [step] at he
  obtain ⟨⟨t2, v⟩, e1, he⟩ := bind_inv he
  cases he
  obtain ⟨as, a1, a2, a3⟩ := remove_cost h9 h1 e1
  exact ⟨a2, as, a1, fun a _ ha => a3 a ha⟩

/-- **C67**, `get` and the mutation of values touch no node. -/
theorem C67_rest {D : Nat} {t t' : DT α} {op : Op α}
    (hop : (∃ k, op = .get k) ∨ ∃ g, op = .mutValues g) {o : Option α × List α}
    (he : step D t op = .ok (t', o)) : t'.heap = t.heap ∧ t'.root = t.root := by
  rcases hop with ⟨k, rfl⟩ | ⟨g, rfl⟩
  · simp only [step] at he
    obtain ⟨v, -, he⟩ := bind_inv he
    cases he
    exact ⟨rfl, rfl⟩
  · simp only [step] at he
    obtain ⟨t2, e1, he⟩ := bind_inv he
    cases he
    unfold mutValues at e1
    obtain ⟨_, -, e1⟩ := bind_inv e1
    cases e1
    exact ⟨rfl, rfl⟩

/-- After `exOps` (keys 5, 64 and 200): key 4095 lies in an empty range of 64 keys and the root is
full, so its insertion makes two allocator calls; for key 70 only its full node grows; 5 is stored. -/
example : (emptyRanges 2 4095 (specRun emptyMap exOps).1, emptyRanges 2 70 (specRun emptyMap exOps).1,
    (specRun emptyMap exOps).1 5) = (1, 0, some 56) ∧
    (do
      let a ← step 2 exD (.insert 4095 1)
      let b ← step 2 exD (.insert 70 1)
      let c ← step 2 exD (.getOrInsert 5 1 id)
      let d ← step 2 exD (.remove 64)
      return [allocCalls exD, allocCalls a.1, allocCalls b.1, allocCalls c.1, allocCalls d.1] : R _) =
      .ok [6, 8, 7, 6, 6] := by
  constructor <;> decide +kernel

example : ∀ t' o, step 2 exD (.insert 4095 1) = .ok (t', o) →
    allocCalls t' ≤ allocCalls exD + 2 ∧ ChangedAtMost 2 exD t' := fun _ _ he =>
  (C67_insert exOps_history exD_reached (k := 4095) (by decide) (.inl ⟨1, rfl⟩) he).2.2

/-! ## C68 -/

/-- The histories without `remove`. -/
def NoRemove (ops : List (Op α)) : Prop := ∀ k, Op.remove k ∉ ops

theorem run_tight {D : Nat} (h1 : 1 ≤ D) (h9 : D ≤ 9) : ∀ (ops : List (Op α)) (t : DT α)
    (M : Nat → Option α), DRep AllNodes D t M → (∀ op ∈ ops, op.OkDepth D) →
    (∀ op ∈ ops, op.InRange (64 ^ D)) → Bounded (64 ^ D) (2 ^ 32) M ops → NoRemove ops →
    Tight t.heap → ∀ t' outs, run D t ops = .ok (t', outs) → Tight t'.heap := by
  intro ops
  induction ops with
  | nil => intro t M _ _ _ _ _ hT t' outs e; cases e; exact hT
  | cons op ops ih =>
    intro t M R hd hr hb hn hT t' outs e
    have hb2 : card (64 ^ D) (op.spec M).1 < 2 ^ 32 := by
      cases ops with
      | nil => exact hb.2
      | cons o os => exact hb.2.1
    obtain ⟨t1, e1, R1⟩ := step_spec R (hd op (by simp)) h9 (hr op (by simp)) hb2
    simp only [run] at e
    rw [e1] at e
    simp only [bind_ok] at e
    obtain ⟨⟨t2, os⟩, e2, e⟩ := bind_inv e
    cases e
    refine ih t1 _ R1 (fun o ho => hd o (by simp [ho])) (fun o ho => hr o (by simp [ho])) hb.2
      (fun k hk => hn k (by simp [hk])) ?_ _ _ e2
    obtain ⟨loc, K, S⟩ := R
    have hin := hr op (by simp)
    unfold Op.InRange at hin
    cases op with
    | insert k v =>
      simp only [step, Dense.insert] at e1
      obtain ⟨out, e3, e1⟩ := bind_inv e1
      obtain ⟨i, e4, e3⟩ := bind_inv e3
      rw [indexFrom_ok h9, if_pos hin] at e4
      cases e4
      simp only [pure_eq_ok, Except.ok.injEq, Prod.mk.injEq] at e1
      rw [← e1.1]
      exact (S.insert_cost h1 h9 hin e3).2.2 hT
    | getOrInsert k d g =>
      simp only [step, getOrInsert] at e1
      obtain ⟨out, e3, e1⟩ := bind_inv e1
      obtain ⟨i, e4, e3⟩ := bind_inv e3
      rw [indexFrom_ok h9, if_pos hin] at e4
      cases e4
      obtain ⟨⟨t3, v⟩, e5, e1⟩ := bind_inv e1
      simp only [pure_eq_ok, Except.ok.injEq, Prod.mk.injEq] at e1
      rw [← e1.1]
      unfold writeRef at e5
      obtain ⟨_, -, e5⟩ := bind_inv e5
      obtain ⟨_, -, e5⟩ := bind_inv e5
      obtain ⟨_, -, e5⟩ := bind_inv e5
      cases e5
      exact (S.insert_cost h1 h9 hin e3).2.2 hT
    | remove k => exact absurd (by simp) (hn k)
    | get k =>
      obtain ⟨g1, -⟩ := C67_rest (.inl ⟨k, rfl⟩) e1
      rw [g1]; exact hT
    | mutValues g =>
      obtain ⟨g1, -⟩ := C67_rest (.inr ⟨g, rfl⟩) e1
      rw [g1]; exact hT

/-- **C68**: as long as nothing has been removed, every node has at most twice the slots that it
uses for its children and the sentinel. -/
theorem C68_slack {D : Nat} {ops : List (Op α)} (h : DenseHistory D ops) (hn : NoRemove ops)
    {t : DT α} (hr : DenseReached D ops t) {a : Nat} {n : Node} (ha : t.heap.node a = some n) :
    n.cells.length ≤ 2 * (popcount n.mask + 1) := by
  obtain ⟨c1, -, c3, -⟩ := C16_counters h hr ha
  obtain ⟨t0, outs, e0, e1⟩ := hr
  obtain ⟨u0, f0, R0⟩ := default_rep α h.depth_pos h.depth_le
  rw [e0] at f0
  cases f0
  have hT0 : Tight t0.heap := by
    unfold Dense.default at e0
    have key : ∀ k e (h' : Heap) c, nodeNew ⟨fun _ => none, 0⟩ k defaultCap e = .ok (h', c) →
        Tight h' := by
      intro k e h' c he
      obtain ⟨-, -, ⟨m, m1, -, m3, m4⟩, m5⟩ := nodeNew_inv he
      intro x y hy
      by_cases hx : x = 0
      · subst hx
        rw [m1] at hy; cases hy
        rw [m3, m4]; decide
      · rw [m5 x hx] at hy; cases hy
    by_cases hD : D = 1
    · simp only [if_pos hD] at e0
      obtain ⟨⟨h', c⟩, e2, e0⟩ := bind_inv e0
      cases e0
      exact key _ _ _ _ e2
    · simp only [if_neg hD] at e0
      obtain ⟨_, -, e0⟩ := bind_inv e0
      obtain ⟨⟨h', c⟩, e2, e0⟩ := bind_inv e0
      cases e0
      exact key _ _ _ _ e2
  have := run_tight h.depth_pos h.depth_le ops t0 _ R0 h.okDepth h.inRange h.bounded hn hT0 _ _ e1 a n ha
  omega

/-- A history of 5 insertions: the node of the block 0 has 4 children in 8 slots. -/
example : NoRemove [Op.insert 0 0, .insert 1 1, .insert 2 2, .insert 3 3, .insert 70 4] ∧
    DenseHistory 2 [Op.insert 0 0, .insert 1 1, .insert 2 2, .insert 3 3, .insert 70 4] ∧
    (do
      let t0 ← default Nat 2
      let (t, _) ← run 2 t0 [Op.insert 0 0, .insert 1 1, .insert 2 2, .insert 3 3, .insert 70 4]
      let (p, _) ← getTerminalNode 2 t.heap t.root [0, 0]
      let n ← deref t.heap p
      return (popcount n.mask, n.cells.length) : R _) = .ok (4, 8) := by
  refine ⟨fun k h => by simp at h, .of_depth (by decide) (by decide) ?_, by decide +kernel⟩
  intro op h
  simp only [List.mem_cons, List.not_mem_nil, or_false] at h
  rcases h with rfl | rfl | rfl | rfl | rfl <;> simp [Op.InRange]

/-- **C68**, the restriction is needed: `remove` never shrinks a node, so after it the bound fails
(only the absolute bound of 128 slots of C53 remains). -/
theorem C68_after_remove : ∃ (ops : List (Op Nat)) (t : DT Nat) (a : Nat) (n : Node),
    DenseHistory 2 ops ∧ DenseReached 2 ops t ∧ t.heap.node a = some n ∧
      2 * (popcount n.mask + 1) < n.cells.length := by
  have hh : DenseHistory 2 [Op.insert 0 0, .insert 1 1, .insert 2 2, .insert 3 3, .remove 0,
      .remove 1, .remove 2] := by
    refine .of_depth (by decide) (by decide) ?_
    intro op h
    simp only [List.mem_cons, List.not_mem_nil, or_false] at h
    rcases h with rfl | rfl | rfl | rfl | rfl | rfl | rfl <;> simp [Op.InRange]
  obtain ⟨t0, t, e0, e1, -⟩ := hh.reach
  have key : (do
      let t0 ← default Nat 2
      let (t, _) ← run 2 t0 [Op.insert 0 0, .insert 1 1, .insert 2 2, .insert 3 3, .remove 0,
        .remove 1, .remove 2]
      let (p, _) ← getTerminalNode 2 t.heap t.root [0, 0]
      let n ← deref t.heap p
      return (match p with | .heap _ => true | .stat _ => false, popcount n.mask, n.cells.length) :
        R _) = .ok (true, 1, 8) := by decide +kernel
  rw [e0] at key
  simp only [bind_ok] at key
  rw [e1] at key
  simp only [bind_ok] at key
  obtain ⟨⟨p, i⟩, -, key⟩ := bind_inv key
  obtain ⟨n, e3, key⟩ := bind_inv key
  cases p with
  | stat i => cases key
  | heap a =>
    simp only [pure_eq_ok, Except.ok.injEq, Prod.mk.injEq, true_and] at key
    refine ⟨_, t, a, n, hh, ⟨t0, _, e0, e1⟩, unwrapU_inv e3, ?_⟩
    rw [key.1, key.2]; decide

end Hibit.Props
