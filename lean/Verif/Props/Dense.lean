import Verif.Dense.History
import Verif.Props.Tree
/-!
# Properties C11 – C18, C45, C46: DenseTree

Specification vocabulary (`Verif/Dense/History.lean`, `Verif/MapSpec.lean`): a container is a map
`Nat → Option α`; `Op.spec` says what each public operation does to the map, what the caller
observes and which values are destroyed; `specRun` runs a history on the map; `Bounded n b M ops`
says that no state of the history holds `b` or more elements.
-/
namespace Hibit.Props
open Hibit Hibit.Dense

section
variable {α : Type}

/-- The empty map. -/
def emptyMap : Nat → Option α := fun _ => none

/-- A history that the type supports: in-range keys, fewer than 2^32 elements at any time (the
capacity of the `u32` data index), depth 1..9, and `remove` only for depth ≥ 2. -/
structure DenseHistory (D : Nat) (ops : List (Op α)) : Prop where
  depth_pos : 1 ≤ D
  depth_le : D ≤ 9
  inRange : ∀ op ∈ ops, op.InRange (64 ^ D)
  bounded : Bounded (64 ^ D) (2 ^ 32) emptyMap ops
  removeDepth : ∀ k, Op.remove k ∈ ops → 2 ≤ D

/-- `t` is the tree reached from `DenseTree::default()` by the history `ops`. -/
def DenseReached (D : Nat) (ops : List (Op α)) (t : DT α) : Prop :=
  ∃ t0 outs, default α D = .ok t0 ∧ run D t0 ops = .ok (t, outs)

theorem DenseHistory.okDepth {D : Nat} {ops : List (Op α)} (h : DenseHistory D ops) :
    ∀ op ∈ ops, op.OkDepth D := by
  intro op hop
  cases op with
  | remove k => exact h.removeDepth k hop
  | _ => exact h.depth_pos

theorem DenseHistory.reach {D : Nat} {ops : List (Op α)} (h : DenseHistory D ops) :
    ∃ t0 t, default α D = .ok t0 ∧ run D t0 ops = .ok (t, (specRun emptyMap ops).2) ∧
      DRep AllNodes D t (specRun emptyMap ops).1 := by
  obtain ⟨t0, e0, R0⟩ := default_rep α h.depth_pos h.depth_le
  obtain ⟨t, e, R⟩ := run_spec h.depth_le ops t0 emptyMap R0 h.okDepth h.inRange h.bounded
  exact ⟨t0, t, e0, e, R⟩

theorem DenseHistory.rep {D : Nat} {ops : List (Op α)} (h : DenseHistory D ops) {t : DT α}
    (hr : DenseReached D ops t) : DRep AllNodes D t (specRun emptyMap ops).1 := by
  obtain ⟨t0, t1, e0, e1, R⟩ := h.reach
  obtain ⟨u0, outs, f0, f1⟩ := hr
  rw [e0] at f0
  cases f0
  rw [e1] at f1
  simp only [Except.ok.injEq, Prod.mk.injEq] at f1
  rw [← f1.1]; exact R

/-- Up to depth 5 the element bound is automatic. -/
theorem DenseHistory.of_depth {D : Nat} {ops : List (Op α)} (h1 : 2 ≤ D) (h5 : D ≤ 5)
    (hr : ∀ op ∈ ops, op.InRange (64 ^ D)) : DenseHistory D ops :=
  ⟨by omega, by omega, hr, bounded_of_depth h5 ops _, fun _ _ => h1⟩

/-- Every in-range history of fewer than 2^32 operations satisfies the element bound, at any depth. -/
theorem DenseHistory.of_length {D : Nat} {ops : List (Op α)} (h1 : 2 ≤ D) (h9 : D ≤ 9)
    (hl : ops.length < 2 ^ 32) (hr : ∀ op ∈ ops, op.InRange (64 ^ D)) : DenseHistory D ops := by
  have key : ∀ (ops : List (Op α)) (M : Nat → Option α),
      card (64 ^ D) M + ops.length < 2 ^ 32 → (∀ op ∈ ops, op.InRange (64 ^ D)) →
      Bounded (64 ^ D) (2 ^ 32) M ops := by
    intro ops
    induction ops with
    | nil => intro M h _; exact h
    | cons op ops ih =>
      intro M h hr
      simp only [List.length_cons] at h
      refine ⟨by omega, ih _ ?_ fun o ho => hr o (by simp [ho])⟩
      have hop := hr op (by simp)
      have : card (64 ^ D) (op.spec M).1 ≤ card (64 ^ D) M + 1 := by
        cases op with
        | insert k v => exact card_put_le hop M _
        | getOrInsert k d g => exact card_put_le hop M _
        | remove k => exact card_put_le hop M _
        | get k => exact Nat.le_succ _
        | mutValues g => exact Nat.le_succ_of_le (Nat.le_of_eq (card_map _ M g))
      omega
  refine ⟨by omega, h9, hr, key ops emptyMap ?_ hr, fun _ _ => h1⟩
  have := card_empty (α := α) (64 ^ D)
  unfold emptyMap
  omega

/-- **C11** (and the observed values of C12): every supported history runs without panic or
undefined behaviour, each operation returns what it returns on the map, and afterwards `get` is the
map, for every in-range key. -/
theorem C11_dense_map {D : Nat} {ops : List (Op α)} (h : DenseHistory D ops) :
    ∃ t0 t, default α D = .ok t0 ∧ run D t0 ops = .ok (t, (specRun emptyMap ops).2) ∧
      ∀ k, k < 64 ^ D → (impl α D).get t k = .ok ((specRun emptyMap ops).1 k) := by
  obtain ⟨t0, t, e0, e, R⟩ := h.reach
  exact ⟨t0, t, e0, e, fun k hk => get_spec R h.depth_pos h.depth_le hk⟩

/-- A concrete history: overwrite, get_or_insert, remove of absent and present keys. -/
def exOps : List (Op Nat) :=
  [.insert 5 50, .insert 4095 1, .insert 5 51, .getOrInsert 64 7 (· + 1), .remove 6, .remove 4095,
   .insert 200 2, .mutValues (fun k v => k + v), .get 5]

theorem exOps_history : DenseHistory 2 exOps := by
  refine .of_depth (by decide) (by decide) ?_
  intro op h
  simp only [exOps, List.mem_cons, List.not_mem_nil, or_false] at h
  rcases h with rfl | rfl | rfl | rfl | rfl | rfl | rfl | rfl | rfl <;> simp [Op.InRange]

/-- The tree reached by `exOps`. -/
def exD : DT Nat :=
  match (do
    let t0 ← Dense.default Nat 2
    run 2 t0 exOps : R _) with
  | .ok r => r.1
  | .error _ => ⟨⟨fun _ => none, 0⟩, .stat 0, [], []⟩

theorem exD_reached : DenseReached 2 exOps exD := by
  obtain ⟨t0, t, e0, e1, -⟩ := exOps_history.reach
  refine ⟨t0, (specRun emptyMap exOps).2, e0, ?_⟩
  have : exD = t := by unfold exD; rw [e0]; simp only [bind_ok]; rw [e1]
  rw [this]; exact e1

/-- `C11_dense_map` on `exOps`, computed by the kernel: the outputs (value observed, values dropped)
and some lookups. -/
example : (do
    let t0 ← Dense.default Nat 2
    let r ← run 2 t0 exOps
    return (r.2, ← (impl Nat 2).get r.1 5, ← (impl Nat 2).get r.1 4095) : R _) =
    .ok ([(none, []), (none, []), (none, [50]), (some 7, []), (none, []), (some 1, []), (none, []),
      (none, []), (some 56, [])], some 56, none) := by decide +kernel

example : ((specRun emptyMap exOps).1 5, (specRun emptyMap exOps).1 64,
    (specRun emptyMap exOps).1 4095, (specRun emptyMap exOps).1 200) =
    (some 56, some 72, none, some 202) := by decide

/-- The only key an operation names (`key_values_mut` names none: it writes to every value). -/
def _root_.Hibit.Dense.Op.key : Op α → Option Nat
  | .insert k _ => some k
  | .getOrInsert k _ _ => some k
  | .remove k => some k
  | .get k => some k
  | .mutValues _ => none

theorem bounded_prefix {n b : Nat} {op : Op α} : ∀ (ops : List (Op α)) (M : Nat → Option α),
    Bounded n b M (ops ++ [op]) →
      Bounded n b M ops ∧ card n (op.spec (specRun M ops).1).1 < b := by
  intro ops
  induction ops with
  | nil => intro M h; exact ⟨h.1, h.2⟩
  | cons o ops ih =>
    intro M h
    obtain ⟨h1, h2⟩ := ih _ h.2
    exact ⟨⟨h.1, h1⟩, h2⟩

theorem DenseHistory.init {D : Nat} {ops : List (Op α)} {op : Op α}
    (h : DenseHistory D (ops ++ [op])) : DenseHistory D ops :=
  ⟨h.depth_pos, h.depth_le, fun o ho => h.inRange o (by simp [ho]), (bounded_prefix ops _ h.bounded).1,
    fun k hk => h.removeDepth k (by simp [hk])⟩

/-- **C11**, independence: after any supported history, the next operation, if it names the key `k`,
leaves what `get` returns for every other key unchanged. -/
theorem C11_independent {D : Nat} {ops : List (Op α)} {op : Op α}
    (h : DenseHistory D (ops ++ [op])) {t : DT α} (hr : DenseReached D ops t) {k : Nat}
    (hk : op.key = some k) :
    ∃ t' o, step D t op = .ok (t', o) ∧
      ∀ j, j < 64 ^ D → j ≠ k → (impl α D).get t' j = (impl α D).get t j := by
  have R := h.init.rep hr
  obtain ⟨t', e, R'⟩ := step_spec R (h.okDepth op (by simp)) h.depth_le (h.inRange op (by simp))
    (bounded_prefix ops _ h.bounded).2
  refine ⟨t', _, e, fun j hj hjk => ?_⟩
  rw [get_spec R' h.depth_pos h.depth_le hj, get_spec R h.depth_pos h.depth_le hj]
  cases op <;> simp_all [Op.spec, Op.key, put]

/-- After `exOps`, `remove(64)` changes key 64 only. -/
example : ∃ t' o, step 2 exD (.remove 64) = .ok (t', o) ∧
    ∀ j, j < 64 ^ 2 → j ≠ 64 → (impl Nat 2).get t' j = (impl Nat 2).get exD j := by
  refine C11_independent (ops := exOps) ?_ exD_reached rfl
  refine .of_depth (by decide) (by decide) fun op hop => ?_
  rcases List.mem_append.1 hop with h | h
  · exact exOps_history.inRange op h
  · rw [List.mem_singleton.1 h]; simp [Op.InRange]

example : (do
    let r ← step 2 exD (.remove 64)
    return (r.2, ← (impl Nat 2).get r.1 64, ← (impl Nat 2).get r.1 5) : R _) =
    .ok ((some 72, []), none, some 56) := by decide +kernel

/-- **C12**: after any supported history (depth ≥ 2, room for one more element), for every key:
`insert` stores the value, dropping exactly the old one; `get_or_insert` returns a present value
without calling `T::default()`, and otherwise stores the default; `remove` returns the stored value
and a second `remove` returns `None`. -/
theorem C12_dense_ops {D : Nat} {ops : List (Op α)} (h : DenseHistory D ops) (h2 : 2 ≤ D)
    {t : DT α} (hr : DenseReached D ops t) {k : Nat} (hk : k < 64 ^ D) (v : α)
    (hroom : card (64 ^ D) (specRun emptyMap ops).1 + 1 < 2 ^ 32) :
    let M := (specRun emptyMap ops).1
    (∃ out, Dense.insert D t k v = .ok out ∧ out.dropped = (M k).toList ∧
      ∀ j, j < 64 ^ D → (impl α D).get out.tree j = .ok (if j = k then some v else M j)) ∧
    (∃ out, getOrInsert D t k v = .ok out ∧ out.dropped = [] ∧ out.called = (M k).isNone ∧
      out.tree.data[out.dataIndex]? = some (some ((M k).getD v)) ∧
      ∀ j, j < 64 ^ D → (impl α D).get out.tree j =
        .ok (if j = k then some ((M k).getD v) else M j)) ∧
    (∃ t', remove D t k = .ok (t', M k) ∧
      (∀ j, j < 64 ^ D → (impl α D).get t' j = .ok (if j = k then none else M j)) ∧
      ∃ t'', remove D t' k = .ok (t'', none) ∧
        ∀ j, j < 64 ^ D → (impl α D).get t'' j = .ok (if j = k then none else M j)) := by
  have R := h.rep hr
  intro M
  have h1 := h.depth_pos
  have h9 := h.depth_le
  have hlen := R.card_eq
  refine ⟨?_, ?_, ?_⟩
  · obtain ⟨out, e1, e2, -, e4, -⟩ := getOrInsertImpl_spec R h1 h9 hk true v (fun _ => by omega)
    refine ⟨out, ?_, by simpa using e4, fun j hj => ?_⟩
    · unfold Dense.insert; rw [indexFrom_ok h9, if_pos hk]; exact e1
    · rw [get_spec e2 h1 h9 hj]; simp [upd]; rfl
  · obtain ⟨out, e1, e2, e3, e4, e5, -⟩ :=
      getOrInsertImpl_spec R h1 h9 hk false v (fun _ => by omega)
    refine ⟨out, ?_, by simpa using e4, by simpa using e5, by simpa using e3, fun j hj => ?_⟩
    · unfold getOrInsert; rw [indexFrom_ok h9, if_pos hk]; exact e1
    · rw [get_spec e2 h1 h9 hj]; simp [upd]; rfl
  · obtain ⟨t', e1, e2, -⟩ := remove_spec R h2 h9 hk
    obtain ⟨t'', f1, f2, -⟩ := remove_spec e2 h2 h9 hk
    refine ⟨t', e1, fun j hj => ?_, t'', ?_, fun j hj => ?_⟩
    · rw [get_spec e2 h1 h9 hj]; simp [upd]; rfl
    · rw [f1]; simp
    · rw [get_spec f2 h1 h9 hj]
      simp only [upd]
      by_cases e : j = k <;> simp [e]
      rfl

/-- The hypotheses hold after `exOps` for the present key 64 (value 72) and the absent key 6. -/
example : (∃ out, Dense.insert 2 exD 64 9 = .ok out ∧ out.dropped = [72]) ∧
    (∃ out, getOrInsert 2 exD 6 9 = .ok out ∧ out.called = true) ∧
    (∃ t', remove 2 exD 64 = .ok (t', some 72)) := by
  have hc : card (64 ^ 2) (specRun emptyMap exOps).1 + 1 < 2 ^ 32 := by
    have := card_le (64 ^ 2) (specRun emptyMap exOps).1
    omega
  obtain ⟨⟨o1, a1, a2, -⟩, -, ⟨t', a3, -⟩⟩ :=
    C12_dense_ops exOps_history (by decide) exD_reached (k := 64) (by decide) 9 hc
  obtain ⟨-, ⟨o2, b1, -, b2, -⟩, -⟩ :=
    C12_dense_ops exOps_history (by decide) exD_reached (k := 6) (by decide) 9 hc
  exact ⟨⟨o1, a1, a2.trans (by decide)⟩, ⟨o2, b1, b2.trans (by decide)⟩, t', a3.trans (by
    rw [show (specRun emptyMap exOps).1 64 = some 72 by decide])⟩

/-- **C13**: `key_values()` succeeds with two equally long slices of initialised values, listing
every present key exactly once with its value, and nothing else. -/
theorem C13_key_values {D : Nat} {ops : List (Op α)} (h : DenseHistory D ops) {t : DT α}
    (hr : DenseReached D ops t) :
    ∃ (ks : List Nat) (vs : List α), keyValues t = .ok (ks, vs.map some) ∧
      ks.length = vs.length ∧ ks.Nodup ∧
      ∀ k v, (k, v) ∈ ks.zip vs ↔ k < 64 ^ D ∧ (specRun emptyMap ops).1 k = some v := by
  obtain ⟨ks, vs, e1, e2, e3, e4⟩ := keyValues_spec (h.rep hr)
  refine ⟨ks, vs, e1, e2, e3, fun k v => ?_⟩
  rw [← e4 k v]
  constructor
  · intro hm
    obtain ⟨j, hj, e⟩ := List.getElem_of_mem hm
    rw [List.getElem_zip] at e
    simp only [Prod.mk.injEq] at e
    simp only [List.length_zip] at hj
    exact ⟨j, by rw [List.getElem?_eq_getElem (by omega), e.1],
      by rw [List.getElem?_eq_getElem (by omega), e.2]⟩
  · rintro ⟨j, h1, h2⟩
    exact List.mem_of_getElem? (i := j) (by rw [List.getElem?_zip_eq_some]; exact ⟨h1, h2⟩)

example : DenseReached 2 exOps exD ∧
    keyValues exD = .ok ([5, 64, 200], [56, 72, 202].map some) := ⟨exD_reached, by decide +kernel⟩

/-- **C14**: no history with *arbitrary* `usize` keys (in range or not) of depth ≥ 2 has undefined
behaviour: it runs to the end, or stops with a panic. (In the model every access to freed or
unallocated nodes, uninitialised cells or values, static nodes, foreign layouts or out-of-range
positions yields `ub`.) -/
theorem C14_memory_safe {D : Nat} (h2 : 2 ≤ D) (h9 : D ≤ 9) (ops : List (Op α))
    (hb : Bounded (64 ^ D) (2 ^ 32) emptyMap ops) :
    ∃ t0, default α D = .ok t0 ∧ ∀ e, run D t0 ops = .error e →
      e = .panic ∧ ∃ op ∈ ops, ¬ op.InRange (64 ^ D) := by
  obtain ⟨t0, e0, R0⟩ := default_rep α (by omega) h9
  refine ⟨t0, e0, ?_⟩
  have key : ∀ (ops : List (Op α)) (t : DT α) (M : Nat → Option α), DRep AllNodes D t M →
      Bounded (64 ^ D) (2 ^ 32) M ops → ∀ e, run D t ops = .error e →
      e = .panic ∧ ∃ op ∈ ops, ¬ op.InRange (64 ^ D) := by
    intro ops
    induction ops with
    | nil => intro t M R _ e he; cases he
    | cons op ops ih =>
      intro t M R hb e he
      by_cases hr : op.InRange (64 ^ D)
      · have hb' : card (64 ^ D) (op.spec M).1 < 2 ^ 32 := by
          have := hb.2
          cases ops with
          | nil => exact this
          | cons o os => exact this.1
        obtain ⟨t1, e1, R1⟩ := step_spec R (by cases op <;> simp [Op.OkDepth] <;> omega) h9 hr hb'
        simp only [run, e1, bind_ok] at he
        cases hrun : run D t1 ops with
        | error e' =>
          rw [hrun] at he
          simp only [bind_err, Except.error.injEq] at he
          subst he
          obtain ⟨g1, o, g2, g3⟩ := ih t1 _ R1 hb.2 _ hrun
          exact ⟨g1, o, by simp [g2], g3⟩
        | ok r => rw [hrun] at he; cases he
      · refine ⟨?_, op, by simp, hr⟩
        cases op with
        | mutValues g => exact absurd trivial hr
        | insert k v =>
          have hk : ¬ k < 64 ^ D := hr
          simp only [run, step, Dense.insert, indexFrom_ok h9, if_neg hk, bind_err,
            Except.error.injEq] at he
          exact he.symm
        | getOrInsert k d g =>
          have hk : ¬ k < 64 ^ D := hr
          simp only [run, step, getOrInsert, indexFrom_ok h9, if_neg hk, bind_err,
            Except.error.injEq] at he
          exact he.symm
        | remove k =>
          have hk : ¬ k < 64 ^ D := hr
          simp only [run, step, remove, indexFrom_ok h9, if_neg hk, bind_err,
            Except.error.injEq] at he
          exact he.symm
        | get k =>
          have hk : ¬ k < 64 ^ D := hr
          have : (impl α D).get t k = .error .panic := by
            unfold Impl.get
            show (do let index ← indexFrom 1 D k
                     let indices ← levelIndices 1 D index
                     treeData D t index indices) = _
            rw [indexFrom_ok h9, if_neg hk]; rfl
          simp only [run, step, this, bind_err, Except.error.injEq] at he
          exact he.symm
  exact key ops t0 _ R0 hb

/-- A history with an out-of-range key: it stops there with a panic. -/
example : Bounded (64 ^ 2) (2 ^ 32) emptyMap (exOps ++ [.insert 4096 1, .insert 7 1]) ∧
    (do
      let t0 ← Dense.default Nat 2
      let _ ← run 2 t0 (exOps ++ [.insert 4096 1, .insert 7 1]) : R _) = .error .panic :=
  ⟨bounded_of_depth (by decide) _ _, by decide +kernel⟩

/-- The trait contract holds with the content of the map, so iteration, cursors and combinators
work on the tree (C27–C41). -/
theorem dense_isTree {D : Nat} {ops : List (Op α)} (h : DenseHistory D ops) {t : DT α}
    (hr : DenseReached D ops t) : IsTreeC (impl α D) t (specRun emptyMap ops).1 := by
  obtain ⟨T, K, L, hT⟩ := (h.rep hr).lawful h.depth_pos h.depth_le
  refine ⟨T, K, L, fun i hi => ?_⟩
  show T.content (path 64 D i) = _
  rw [hT, unpath_path 64 D i hi]

/-- **C15**: `EXACT_HIERARCHY = true` is declared, and after any supported history every set bit of
every mask seen through any legal sequence of cursor moves leads to a stored key. -/
theorem C15_dense_exact {D : Nat} {ops : List (Op α)} (h : DenseHistory D ops) {t : DT α}
    (hr : DenseReached D ops t) : (impl α D).exact = true ∧
    ∃ B, MaskSpec 64 D true (specRun emptyMap ops).1 B ∧ ∃ c0, (impl α D).new t = .ok c0 ∧
      ∀ moves, LegalMoves 64 D B none moves →
        ∃ masks c, runMoves (impl α D) t c0 moves = .ok (masks, c) ∧
          ∀ (n : Nat) m p j, masks[n]? = some m → (movePaths none moves)[n]? = some p →
            m.bit j = true → ∃ q, ValidPath 64 (p ++ j :: q) ∧ (p ++ j :: q).length = D ∧
              ((specRun emptyMap ops).1 (unpath 64 (p ++ j :: q))).isSome = true :=
  ⟨rfl, contract_exact (dense_isTree h hr).isTree rfl⟩

/-- The masks of the root and of the node of keys 0..64 after `exOps`. -/
example : DenseReached 2 exOps exD ∧ (do
    let c ← (impl Nat 2).new exD
    let (m0, c) ← (impl Nat 2).select c exD 0 0
    let (m1, _) ← (impl Nat 2).select c exD 1 0
    return (m0, m1) : R _) = .ok ([0b1011], [0b100000]) := ⟨exD_reached, by decide +kernel⟩

/-- **C15**, storage: every allocated node other than the root has a child, i.e. removal frees
every node that becomes empty. -/
theorem C15_no_empty_nodes {D : Nat} {ops : List (Op α)} (h : DenseHistory D ops) {t : DT α}
    (hr : DenseReached D ops t) {a : Nat} {n : Node} (hn : t.heap.node a = some n)
    (ha : t.root ≠ .heap a) : n.mask ≠ 0 := by
  obtain ⟨loc, K, S⟩ := h.rep hr
  obtain ⟨p, hp⟩ := S.tree.rep.cover a n hn
  obtain ⟨n', e1, -, hrep⟩ := S.tree.rep.node p a hp
  rw [hn] at e1
  cases e1
  have hne : p ≠ [] := by
    rintro rfl
    obtain ⟨b, h1, h2⟩ := S.tree.root
    rw [hp] at h1
    cases h1
    exact ha h2
  obtain ⟨i, hi, hF⟩ := S.exact p a trivial hp hne
  intro hz
  have := hrep.bits i hi
  rw [hz] at this
  cases hf : cellsOf D loc K p i with
  | none => exact hF hf
  | some c => rw [hf] at this; simp at this

/-- The nodes after `exOps` (the root is node 3; the node of the removed key 4095 is freed). -/
example : exD.root = .heap 3 ∧ (exD.heap.node 3).map (·.mask) = some 11 ∧
    (List.range 7).map (fun a => (exD.heap.node a).isSome) =
      [false, true, false, true, true, true, false] := by decide +kernel

example : ∀ n, exD.heap.node 4 = some n → n.mask ≠ 0 := fun _ hn =>
  C15_no_empty_nodes exOps_history exD_reached hn (by decide +kernel)

/-- **C16**: in every reachable state every node's length counter is the number of its children plus
the sentinel, does not exceed the capacity, the capacity is the allocated size and at most 128, so
all of them fit in `u8` (and by C11 no checked `u8` operation ever overflows). -/
theorem C16_counters {D : Nat} {ops : List (Op α)} (h : DenseHistory D ops) {t : DT α}
    (hr : DenseReached D ops t) {a : Nat} {n : Node} (hn : t.heap.node a = some n) :
    n.len = popcount n.mask + 1 ∧ n.len ≤ n.cap ∧ n.cap = n.cells.length ∧ n.cap ≤ 128 ∧
      n.len ≤ 65 := by
  obtain ⟨loc, K, S⟩ := h.rep hr
  obtain ⟨p, hp⟩ := S.tree.rep.cover a n hn
  obtain ⟨n', e1, -, hrep⟩ := S.tree.rep.node p a hp
  rw [hn] at e1
  cases e1
  have hpc : popcount n.mask = ((List.range 64).filterMap (cellsOf D loc K p)).length := by
    unfold popcount
    rw [List.length_filterMap_eq_countP]
    apply List.countP_congr
    intro i hi
    rw [List.mem_range] at hi
    rw [hrep.bits i hi]
  have hle := filterMap_length_le (cellsOf D loc K p)
  have := hrep.len_eq
  exact ⟨by omega, hrep.le, hrep.cap_eq.symm, hrep.cap_le, by omega⟩

example : exD.heap.node 3 = some ⟨.branch, 11, 4, 4,
    [.ptr (.heap 1), .ptr (.heap 4), .ptr (.heap 5), .ptr (.stat 8)]⟩ ∧ popcount 11 + 1 = 4 := by
  decide +kernel

/-- **C17**: dropping the tree after any supported history succeeds (every node is freed through a
valid pointer with its own layout, statics are not freed), leaves no node allocated, and drops
exactly the stored values, each once. -/
theorem C17_drop {D : Nat} {ops : List (Op α)} (h : DenseHistory D ops) {t : DT α}
    (hr : DenseReached D ops t) :
    ∃ vs heap', dropImpl D t = .ok (vs, heap') ∧
      List.Perm vs (valuesOf (64 ^ D) (specRun emptyMap ops).1) ∧ ∀ a, heap'.node a = none :=
  dropImpl_spec (h.rep hr) h.depth_pos

example : DenseReached 2 exOps exD ∧ (dropImpl 2 exD).map (·.1) = .ok [56, 72, 202] :=
  ⟨exD_reached, by decide +kernel⟩

/-- The values handed to the tree by a history (for `get_or_insert`: the default, if it is used). -/
def given (M : Nat → Option α) : List (Op α) → List α
  | [] => []
  | op :: ops =>
    (match op with
     | .insert _ v => [v]
     | .getOrInsert k d _ => if (M k).isNone then [d] else []
     | _ => []) ++ given (op.spec M).1 ops

/-- The values leaving the tree during a history: returned by `remove` or dropped by the call. -/
def taken (M : Nat → Option α) : List (Op α) → List α
  | [] => []
  | op :: ops =>
    (match op with
     | .remove k => (M k).toList
     | op => (op.spec M).2.2) ++ taken (op.spec M).1 ops

/-- Histories whose references are only read. -/
def ReadOnlyRefs (ops : List (Op α)) : Prop :=
  ∀ op ∈ ops, (∀ k d g, op = .getOrInsert k d g → ∀ x, g x = x) ∧ ∀ g, op ≠ .mutValues g

theorem conservation {n : Nat} : ∀ (ops : List (Op α)) (M : Nat → Option α), ReadOnlyRefs ops →
    (∀ op ∈ ops, op.InRange n) →
    List.Perm (valuesOf n (specRun M ops).1 ++ taken M ops) (valuesOf n M ++ given M ops) := by
  intro ops
  induction ops with
  | nil => intro M _ _; simp [specRun, taken, given]
  | cons op ops ih =>
    intro M hro hr
    have IH := ih (op.spec M).1 (fun o ho => hro o (by simp [ho])) (fun o ho => hr o (by simp [ho]))
    have hrun : (specRun M (op :: ops)).1 = (specRun (op.spec M).1 ops).1 := rfl
    rw [hrun]
    -- `A` leaves, `B` enters in this step
    have glue : ∀ A B : List α, List.Perm (valuesOf n (op.spec M).1 ++ A) (valuesOf n M ++ B) →
        taken M (op :: ops) = A ++ taken (op.spec M).1 ops →
        given M (op :: ops) = B ++ given (op.spec M).1 ops →
        List.Perm (valuesOf n (specRun (op.spec M).1 ops).1 ++ taken M (op :: ops))
          (valuesOf n M ++ given M (op :: ops)) := by
      intro A B h1 h2 h3
      rw [h2, h3]
      refine (List.perm_append_comm_assoc _ _ _).trans ?_
      refine (IH.append_left A).trans ?_
      rw [← List.append_assoc, ← List.append_assoc]
      exact ((List.perm_append_comm).trans h1).append_right _
    have hk := hr op (by simp)
    cases op with
    | insert k v => exact glue (M k).toList [v] (valuesOf_put hk M (some v)) rfl rfl
    | getOrInsert k d g =>
      have hg := (hro _ (by simp)).1 k d g rfl
      refine glue [] (if (M k).isNone then [d] else []) ?_ rfl rfl
      have hp := valuesOf_put hk M (some (g ((M k).getD d)))
      show List.Perm (valuesOf n (put M k (some (g ((M k).getD d)))) ++ []) _
      rw [hg] at hp ⊢
      cases hM : M k with
      | none => rw [hM] at hp; simpa using hp
      | some x =>
        rw [hM] at hp
        simp only [Option.getD_some, Option.toList_some] at hp ⊢
        have := (List.perm_append_right_iff [x]).1 hp
        simpa using this
    | remove k =>
      refine glue (M k).toList [] ?_ rfl rfl
      simpa [Op.spec] using valuesOf_put hk M none
    | get k => exact glue [] [] (by simp [Op.spec]) rfl rfl
    | mutValues g => exact absurd rfl ((hro _ (by simp)).2 g)

/-- **C17**, conservation: over a whole life of a tree (any supported history whose references are
only read, then drop), the values handed in are, as a multiset, exactly the values returned by
`remove`, dropped on overwrite, and dropped at the end: nothing is lost or dropped twice. -/
theorem C17_conservation {D : Nat} {ops : List (Op α)} (h : DenseHistory D ops)
    (hro : ReadOnlyRefs ops) {t : DT α} (hr : DenseReached D ops t) :
    ∃ vs heap', dropImpl D t = .ok (vs, heap') ∧
      List.Perm (vs ++ taken emptyMap ops) (given emptyMap ops) := by
  obtain ⟨vs, heap', e, hp, -⟩ := C17_drop h hr
  refine ⟨vs, heap', e, (hp.append_right _).trans ?_⟩
  have := conservation ops emptyMap hro h.inRange
  refine this.trans ?_
  have hz : valuesOf (64 ^ D) (emptyMap : Nat → Option α) = [] := by
    unfold valuesOf emptyMap
    simp
  rw [hz]; exact List.Perm.refl _

example : given emptyMap exOps = [50, 1, 51, 7, 2] ∧ taken emptyMap exOps = [50, 1] := by decide

/-- **C18** is false: on a `DenseTree` of depth 1 `remove` with any in-range key, present or not, is
undefined behaviour (`unwrap_unchecked` on the last element of an empty array). -/
theorem C18_fails (t : DT α) {k : Nat} (hk : k < 64) : remove 1 t k = .error .ub := by
  unfold remove
  rw [indexFrom_ok (by decide), if_pos (by simpa using hk)]
  simp only [bind_ok, levelIndices_ok (D := 1) (by decide) (by decide)]
  rfl

/-- Even for a present key. -/
example : (do
    let t0 ← Dense.default Nat 1
    let r ← run 1 t0 [.insert 3 1]
    let _ ← remove 1 r.1 3 : R _) = .error .ub := by decide +kernel

/-- **C45**: a new DenseTree of any depth 1..9 is constructed without error, answers `None` for
every in-range index, and iterates nothing. -/
theorem C45_dense_empty {D : Nat} (h1 : 1 ≤ D) (h9 : D ≤ 9) :
    ∃ t, default α D = .ok t ∧ (∀ k, k < 64 ^ D → (impl α D).get t k = .ok none) ∧
      ∃ F, ∀ fuel, F ≤ fuel → ∀ n, (impl α D).iterRun t fuel n = .ok (List.replicate n none) := by
  have h : DenseHistory (α := α) D [] :=
    ⟨h1, h9, by simp, by
      show card (64 ^ D) (fun _ => none : Nat → Option α) < 2 ^ 32
      have : keysOf (64 ^ D) (fun _ => none : Nat → Option α) = [] := by
        unfold keysOf; rw [List.filter_eq_nil_iff]; simp
      simp [card, this], by simp⟩
  obtain ⟨t0, e0, R0⟩ := default_rep α h1 h9
  have hr : DenseReached D [] t0 := ⟨t0, [], e0, rfl⟩
  refine ⟨t0, e0, fun k hk => get_spec R0 h1 h9 hk, ?_⟩
  obtain ⟨F, hF⟩ := contract_iter (dense_isTree h hr).isTree
  refine ⟨F, fun fuel hf n => ?_⟩
  rw [hF fuel hf n]
  have : listing (width (impl α D).N ^ (impl α D).D) (specRun emptyMap ([] : List (Op α))).1 = [] := by
    unfold listing specRun emptyMap
    simp
  rw [this]
  congr 1
  apply List.ext_getElem?
  intro j
  simp [List.getElem?_replicate]
  by_cases hj : j < n <;> simp [hj]

example : (do
    let t ← Dense.default Nat 9
    return (← (impl Nat 9).get t (64 ^ 9 - 1), ← (impl Nat 9).iterRun t 50 3) : R _) =
    .ok (none, [none, none, none]) := by decide +kernel

/-- **C46**, DenseTree: every operation taking an index panics on an out-of-range one, whatever the
state of the tree (even for states whose memory must not be touched), i.e. before any access. -/
theorem C46_dense_out_of_range {D : Nat} (h9 : D ≤ 9) {k : Nat} (hk : 64 ^ D ≤ k) (t : DT α)
    (v : α) : Dense.insert D t k v = .error .panic ∧ getOrInsert D t k v = .error .panic ∧
      remove D t k = .error .panic ∧ (impl α D).get t k = .error .panic := by
  have hk' : ¬ k < 64 ^ D := by omega
  refine ⟨?_, ?_, ?_, ?_⟩
  · unfold Dense.insert; rw [indexFrom_ok h9, if_neg hk']; rfl
  · unfold getOrInsert; rw [indexFrom_ok h9, if_neg hk']; rfl
  · unfold remove; rw [indexFrom_ok h9, if_neg hk']; rfl
  · show (do let index ← indexFrom 1 D k
             let indices ← levelIndices 1 D index
             treeData D t index indices) = _
    rw [indexFrom_ok h9, if_neg hk']; rfl

example : Dense.insert 2 exD 4096 1 = .error .panic ∧ (impl Nat 2).get exD 4096 = .error .panic ∧
    (impl Nat 2).get exD 4095 = .ok none :=
  ⟨(C46_dense_out_of_range (by decide) (by decide) exD 1).1,
   (C46_dense_out_of_range (by decide) (by decide) exD 1).2.2.2, by decide +kernel⟩

end

end Hibit.Props
