import Verif.Props.Trees
import Verif.Props.Trace
/-!
# Property C76: the repository's own tests

Part 1 re-enacts the tests of the repository that use literal data, statement by statement, on the model;
the kernel evaluates them. They are checks of the model, not proofs of properties.

Part 2 transcribes the tests that loop over a size or over random numbers (src/dense_tree/tests.rs `test2`,
tests/sparse_tree.rs `insert_test2`, tests/fuzzy.rs `fuzzy_test`, tests/from.rs `materialize_test`) as
programs whose size and random numbers are parameters, and proves that no choice makes an assertion fail.
-/
namespace Hibit.Props
open Hibit Hibit.Dense

/-- `assert!(b)`. -/
def assertThat (b : Bool) : R Unit := if b then .ok () else .error .panic

/-- `opt.unwrap()`. -/
def unwrapP {β : Type} : Option β → R β
  | some v => .ok v
  | none => .error .panic

/-- `*a.get_or_insert(k) = v;` on a `DenseTree<usize, D>`. -/
def assign (D : Nat) (a : DT Nat) (k v : Nat) : R (DT Nat) := do
  let (a, _) ← step D a (.getOrInsert k 0 fun _ => v)
  return a

/-- `*a.get_or_insert(k)` as a value. -/
def getOrInsertValue (D : Nat) (a : DT Nat) (k : Nat) : R (DT Nat × Nat) := do
  let (a, v, _) ← step D a (.getOrInsert k 0 id)
  let v ← unwrapP v
  return (a, v)

/-- `a.insert(k, v);`. -/
def insertQ {α : Type} (D : Nat) (a : DT α) (k : Nat) (v : α) : R (DT α) := do
  let (a, _) ← step D a (.insert k v)
  return a

/-- `a.remove(k)`. -/
def removeQ {α : Type} (D : Nat) (a : DT α) (k : Nat) : R (DT α × Option α) := do
  let (a, v, _) ← step D a (.remove k)
  return (a, v)

/-! ## Part 1: tests with literal data -/

/-- src/dense_tree/tests.rs:6-20 `test`. -/
example : (do
    let a ← Dense.default Nat 3
    assertThat ((← (impl Nat 3).get a 15) = none)
    let a ← assign 3 a 15 89
    assertThat ((← (impl Nat 3).get a 15) = some 89)
    let a ← assign 3 a 16 90
    assertThat ((← (impl Nat 3).get a 20) = none)
    let (a, v) ← getOrInsertValue 3 a 15
    assertThat (v = 89)
    let (a, v) ← getOrInsertValue 3 a 0
    assertThat (v = 0)
    let (_, v) ← getOrInsertValue 3 a 100
    assertThat (v = 0) : R Unit) = .ok () := by decide +kernel

/-- src/dense_tree/tests.rs:50-59 `test_remove`. -/
example : (do
    let a ← Dense.default Nat 2
    let a ← assign 2 a 10 10
    let a ← assign 2 a 11 11
    let (a, v) ← removeQ 2 a 11
    let (_, w) ← removeQ 2 a 10
    return (v, w) : R _) = .ok (some 11, some 10) := by decide +kernel

/-- The trees of the tests of `src/ops`: `a1`, `a2`, `a3`. -/
def smokeTrees : R (DT Nat × DT Nat × DT Nat) := do
  let a1 ← Dense.default Nat 3
  let a1 ← assign 3 a1 10 10
  let a1 ← assign 3 a1 15 15
  let a1 ← assign 3 a1 200 200
  let a2 ← Dense.default Nat 3
  let a2 ← assign 3 a2 100 100
  let a2 ← assign 3 a2 15 15
  let a2 ← assign 3 a2 200 200
  let a3 ← Dense.default Nat 3
  let a3 ← assign 3 a3 300 300
  let a3 ← assign 3 a3 15 15
  return (a1, a2, a3)

/-- src/ops/_multi_union.rs:347-405 `smoke_test`. -/
example : (do
    let (a1, a2, a3) ← smokeTrees
    let U := multiUnionImpl (impl Nat 3)
    let ts := [a1, a2, a3]
    assertThat ((← U.iterRun ts 9 6) = [some (10, [10]), some (15, [15, 15, 15]), some (100, [100]),
      some (200, [200, 200]), some (300, [300]), none])
    assertThat ((← U.get ts 10) = some [10])
    assertThat ((← U.get ts 15) = some [15, 15, 15])
    assertThat ((← U.get ts 25) = none)
    assertThat ((← U.getU ts 10) = [10])
    assertThat ((← U.getU ts 15) = [15, 15, 15]) : R Unit) = .ok () := by decide +kernel

/-- src/ops/_multi_intersection.rs:564-601 `smoke_test`. -/
example : (do
    let (a1, a2, a3) ← smokeTrees
    let X := multiInterImpl (impl Nat 3)
    let ts := [a1, a2, a3]
    assertThat ((← X.iterRun ts 9 2) = [some (15, [15, 15, 15]), none])
    assertThat ((← X.get ts 15) = some [15, 15, 15])
    assertThat ((← X.get ts 200) = none)
    assertThat ((← X.getU ts 15) = [15, 15, 15]) : R Unit) = .ok () := by decide +kernel

/-- src/ops/multi_map_fold.rs:174-201 `smoke_test`. -/
example : (do
    let e ← Dense.default Nat 4
    let a1 ← insertQ 4 e 10 10
    let a1 ← insertQ 4 a1 15 15
    let a1 ← insertQ 4 a1 30 30
    let a2 ← insertQ 4 e 15 15
    let a2 ← insertQ 4 a2 20 20
    let a3 ← insertQ 4 e 15 15
    let a3 ← insertQ 4 a3 30 30
    let F := foldImpl (multiInterImpl (impl Nat 4)) 0 (fun a v => a + v)
    let ts := [a1, a2, a3]
    assertThat ((← F.get ts 10) = none)
    assertThat ((← F.get ts 15) = some 45)
    assertThat ((← F.get ts 30) = none)
    assertThat ((← F.getU ts 15) = 45)
    assertThat ((← F.iterRun ts 9 2) = [some (15, 45), none]) : R Unit) = .ok () := by decide +kernel

/-- src/ops/union.rs:192-219 `smoke_test`. -/
example : (do
    let (a1, a2, _) ← smokeTrees
    let U := mapImpl (unionImpl (impl Nat 3) (impl Nat 3)) (fun e => e.1.getD 0 + e.2.getD 0)
    assertThat ((← U.getU (a1, a2) 200) = 400)
    assertThat ((← U.get (a1, a2) 15) = some 30)
    assertThat ((← U.get (a1, a2) 10) = some 10)
    assertThat ((← U.get (a1, a2) 20) = none)
    assertThat ((← U.iterRun (a1, a2) 9 5) = [some (10, 10), some (15, 30), some (100, 100),
      some (200, 400), none]) : R Unit) = .ok () := by decide +kernel

/-- src/ops/intersection.rs:201-237 `smoke_test`, with the commented-out part. -/
example : (do
    let (a1, a2, _) ← smokeTrees
    let X := interImpl (impl Nat 3) (impl Nat 3)
    assertThat ((← X.iterRun (a1, a2) 9 3) = [some (15, (15, 15)), some (200, (200, 200)), none])
    let Y := mapImpl X (fun e => e.1 + e.2)
    assertThat ((← Y.getU (a1, a2) 200) = 400)
    assertThat ((← Y.get (a1, a2) 15) = some 30)
    assertThat ((← Y.get (a1, a2) 10) = none)
    assertThat ((← Y.get (a1, a2) 20) = none)
    assertThat ((← Y.iterRun (a1, a2) 9 3) = [some (15, 30), some (200, 400), none]) : R Unit) =
    .ok () := by decide +kernel

/-- src/lib.rs:252-277 `test_level_indices_new`. -/
example : levelIndices 1 2 65 = .ok [1, 1] ∧ levelIndices 1 3 (4096 * 2 + 64 * 3 + 4) = .ok [2, 3, 4] ∧
    levelIndices 1 3 32 = .ok [0, 0, 32] ∧ levelIndices 1 2 32 = .ok [0, 32] ∧
    levelIndices 1 1 32 = .ok [32] := by decide +kernel

/-- src/dense_tree/tests.rs:73-86 `test_exact_from` (commented out there). -/
example : (do
    let a ← Dense.default Nat 4
    let a ← insertQ 4 a 15 15
    let a ← insertQ 4 a 4500 4500
    let b ← materialize (impl Nat 4) a
    (impl Nat 4).iterRun b 9 3 : R _) = .ok [some (15, 15), some (4500, 4500), none] := by
  decide +kernel

/-- tests/sparse_tree.rs:28-36 `depth2_test`. -/
example : (do
    let t ← Sparse.run 1 2 (Sparse.default Nat 1 2 none) [.insert 1 3]
    (Sparse.impl Nat 1 2).iterRun t.1 9 1 : R _) = .ok [some (1, 3)] := by decide +kernel

/-- tests/sparse_tree.rs:83-93 `remove_test`. -/
example : (do
    let a ← Dense.default Nat 3
    let a ← assign 3 a 1 1
    let a ← assign 3 a 2 2
    let a ← assign 3 a 400 400
    let (a, v) ← getOrInsertValue 3 a 1
    let (a, w) ← getOrInsertValue 3 a 2
    let (_, x) ← getOrInsertValue 3 a 400
    return (v, w, x) : R _) = .ok (1, 2, 400) := by decide +kernel

/-! ## Part 2: tests with a size or random numbers -/

/-- src/dense_tree/tests.rs:22-48 `test2` (there `D = 3`, `COUNT = 200_000`). -/
def repoTest2 (D COUNT : Nat) : R Unit := do
  let a ← Dense.default Nat D
  let a ← (List.range COUNT).foldlM (fun a i => assign D a i i) a
  (List.range COUNT).forM fun i => do
    let v ← (impl Nat D).get a i
    assertThat (v = some i)
  let a ← (List.range COUNT).foldlM (fun a i => do return (← removeQ D a i).1) a
  (List.range COUNT).forM fun i => do
    let v ← (impl Nat D).get a i
    assertThat (v = none)

/-- tests/sparse_tree.rs:53-81 `insert_test2` (there `D = 3`, `COUNT = 200_000`); `fuel` bounds the search
loop of `next` (iter.rs:92), the loops over `iter()` end at the first `None`. -/
def repoInsertTest2 (fuel D COUNT : Nat) : R Unit := do
  let a ← Dense.default Nat D
  let a ← (List.range COUNT).foldlM (fun a i => assign D a i i) a
  (List.range COUNT).forM fun i => do
    let v ← (impl Nat D).get a i
    let v ← unwrapP v
    assertThat (v = i)
  let os ← (impl Nat D).iterRun a fuel (64 ^ D)
  let _ ← (itemsOf os).foldlM (fun i kv => do
    assertThat (kv.1 = kv.2)
    assertThat (kv.1 = i)
    return i + 1) 0
  assertThat ((itemsOf os).map (·.2) = List.range COUNT)

/-- tests/fuzzy.rs:28-61 `check`: `h` is the `HashMap`, `hIter` its iteration, `looks` the random indices. -/
def fuzzyCheck (fuel D : Nat) (hIter : (Nat → Option Nat) → List (Nat × Nat)) (a : DT Nat)
    (h : Nat → Option Nat) (looks : List Nat) : R Unit := do
  let os ← (impl Nat D).iterRun a fuel (64 ^ D)
  let aItems := (itemsOf os).map (·.2)
  let (_, vs) ← keyValues a
  let vs ← vs.mapM unwrapU
  let aUnordered := vs.mergeSort
  let hItems := ((hIter h).map (·.2)).mergeSort
  assertThat (aItems = aUnordered)
  assertThat (aUnordered = hItems)
  (hIter h).forM fun kv => do
    let d ← (impl Nat D).get a kv.1
    let d ← unwrapP d
    assertThat (d = kv.2)
    let u ← (impl Nat D).getU a kv.1
    assertThat (d = u)
  looks.forM fun v => do
    let d1 ← (impl Nat D).get a v
    assertThat (d1 = h v)

/-- The random choices of one round of tests/fuzzy.rs:63-79. -/
structure FuzzyRound where
  inserts : List Nat
  looks : List Nat
  removes : List Nat
  looks' : List Nat

/-- tests/fuzzy.rs:63-79. -/
def fuzzyRound (fuel D : Nat) (hIter : (Nat → Option Nat) → List (Nat × Nat))
    (st : DT Nat × (Nat → Option Nat)) (r : FuzzyRound) : R (DT Nat × (Nat → Option Nat)) := do
  let (a, h) ← r.inserts.foldlM (fun (st : DT Nat × (Nat → Option Nat)) v => do
    return (← assign D st.1 v v, put st.2 v (some v))) st
  fuzzyCheck fuel D hIter a h r.looks
  let (a, h) ← r.removes.foldlM (fun (st : DT Nat × (Nat → Option Nat)) v => do
    return ((← removeQ D st.1 v).1, put st.2 v none)) (a, h)
  fuzzyCheck fuel D hIter a h r.looks'
  return (a, h)

/-- tests/fuzzy.rs:16-89 `fuzzy_test` (there `D = 3`, indices below 260_000). -/
def repoFuzzyTest (fuel D : Nat) (hIter : (Nat → Option Nat) → List (Nat × Nat))
    (rounds : List FuzzyRound) (looks : List Nat) : R Unit := do
  let a ← Dense.default Nat D
  let (a, h) ← rounds.foldlM (fuzzyRound fuel D hIter) (a, emptyMap)
  let a ← (hIter h).foldlM (fun a kv => do return (← removeQ D a kv.1).1) a
  fuzzyCheck fuel D hIter a emptyMap looks

/-- tests/from.rs:19-82 `materialize_test` (there `D = 4` and 4000 random indices `vs`). The closure of the
union is `|(l, _r)| l.unwrap().clone()`; here the option is stored, and the comparison also asserts that it
is never `None` (when `unwrap` would panic). -/
def repoMaterializeTest (fuel D : Nat) (vs : List Nat) : R Unit := do
  let a1 ← Dense.default Nat D
  let a2 ← Dense.default Nat D
  let (a1, a2) ← vs.foldlM (fun (st : DT Nat × DT Nat) v => do
    return (← insertQ D st.1 v v, ← insertQ D st.2 v v)) (a1, a2)
  let expected ← (impl Nat D).iterRun a1 fuel (64 ^ D)
  let ao ← materialize (mapImpl (impl Nat D) fun d => d) a1
  let os ← (impl Nat D).iterRun ao fuel (64 ^ D)
  assertThat (itemsOf os = itemsOf expected)
  let ao ← materialize (mapImpl (interImpl (impl Nat D) (impl Nat D)) fun e => e.1) (a1, a2)
  let os ← (impl Nat D).iterRun ao fuel (64 ^ D)
  assertThat (itemsOf os = itemsOf expected)
  let ao ← materialize (mapImpl (unionImpl (impl Nat D) (impl Nat D)) fun e => e.1) (a1, a2)
  let os ← (impl (Option Nat) D).iterRun ao fuel (64 ^ D)
  assertThat (itemsOf os = (itemsOf expected).map fun kv => (kv.1, some kv.2))

/-! ### Proofs -/

section
variable {D : Nat} {a : DT Nat} {M : Nat → Option Nat}

theorem card_small {α : Type} (h5 : D ≤ 5) (M : Nat → Option α) : card (64 ^ D) M < 2 ^ 32 := by
  have h1 := card_le (64 ^ D) M
  have h2 : 64 ^ D ≤ 64 ^ 5 := Nat.pow_le_pow_right (by decide) h5
  omega

theorem assign_spec (h1 : 1 ≤ D) (h5 : D ≤ 5) (R : DRep AllNodes D a M) {k : Nat} (hk : k < 64 ^ D)
    (v : Nat) : ∃ a', assign D a k v = .ok a' ∧ DRep AllNodes D a' (put M k (some v)) := by
  obtain ⟨a', e, R'⟩ := step_spec (op := .getOrInsert k 0 fun _ => v) R h1 (by omega) hk
    (card_small h5 _)
  exact ⟨a', by unfold assign; rw [e]; rfl, R'⟩

theorem insertQ_spec {α : Type} {a : DT α} {M : Nat → Option α} (h1 : 1 ≤ D) (h5 : D ≤ 5)
    (R : DRep AllNodes D a M) {k : Nat} (hk : k < 64 ^ D)
    (v : α) : ∃ a', insertQ D a k v = .ok a' ∧ DRep AllNodes D a' (put M k (some v)) := by
  obtain ⟨a', e, R'⟩ := step_spec (op := .insert k v) R h1 (by omega) hk
    (card_small h5 _)
  exact ⟨a', by unfold insertQ; rw [e]; rfl, R'⟩

theorem removeQ_spec (h2 : 2 ≤ D) (h5 : D ≤ 5) (R : DRep AllNodes D a M) {k : Nat} (hk : k < 64 ^ D) :
    ∃ a', removeQ D a k = .ok (a', M k) ∧ DRep AllNodes D a' (put M k none) := by
  obtain ⟨a', e, R'⟩ := step_spec (op := .remove k) R h2 (by omega) hk (card_small h5 _)
  exact ⟨a', by unfold removeQ; rw [e]; rfl, R'⟩

theorem foldlM_inv {σ β : Type} {f : σ → β → R σ} (P : List β → σ → Prop) :
    ∀ (l done : List β) (s : σ), P done s →
    (∀ done x s, x ∈ l → P done s → ∃ s', f s x = .ok s' ∧ P (done ++ [x]) s') →
    ∃ s', l.foldlM f s = .ok s' ∧ P (done ++ l) s'
  | [], done, s, h, _ => ⟨s, rfl, by simpa using h⟩
  | x :: l, done, s, h, hf => by
    obtain ⟨s1, e1, h1⟩ := hf done x s (by simp) h
    obtain ⟨s2, e2, h2⟩ := foldlM_inv P l (done ++ [x]) s1 h1
      (fun d y s hy => hf d y s (by simp [hy]))
    exact ⟨s2, by rw [List.foldlM_cons, e1]; exact e2, by simpa using h2⟩

theorem forM_ok {β : Type} {f : β → R Unit} : ∀ (l : List β), (∀ x ∈ l, f x = .ok ()) → l.forM f = .ok ()
  | [], _ => rfl
  | x :: l, h => by
    have e : (x :: l).forM f = (do f x; l.forM f) := rfl
    rw [e, h x (by simp)]
    exact forM_ok l fun y hy => h y (by simp [hy])

theorem assertThat_ok {p : Prop} [Decidable p] (h : p) : assertThat (decide p) = .ok () := by
  simp [assertThat, h]

theorem rounds_of_isTree {α : Type} {a : DT α} {M : Nat → Option α} (h : IsTree (impl α D) a M)
    {fuel : Nat} (hf : D ≤ fuel) (n : Nat) : (impl α D).iterRun a fuel n =
      .ok ((List.range n).map (fun k => (listing (64 ^ D) M)[k]?)) := by
  obtain ⟨F, hF⟩ := contract_iter h
  obtain ⟨T, K, L, e⟩ := h
  have hF' := hF (max F D) (Nat.le_max_left _ _) n
  rw [run_erase, iterTrace_spec L rfl (show (impl α D).D ≤ max F D from Nat.le_max_right _ _)] at hF'
  rw [run_erase, iterTrace_spec L rfl (show (impl α D).D ≤ fuel from hf)]
  exact hF'

theorem items_of_isTree {α : Type} {a : DT α} {M : Nat → Option α} (h : IsTree (impl α D) a M)
    {fuel : Nat} (hf : D ≤ fuel) :
    ∃ os, (impl α D).iterRun a fuel (64 ^ D) = .ok os ∧ itemsOf os = listing (64 ^ D) M :=
  ⟨_, rounds_of_isTree h hf _, itemsOf_range _ _ (listing_length_le _ _)⟩

theorem items_of_rep {α : Type} {a : DT α} {M : Nat → Option α} (h1 : 1 ≤ D) (h9 : D ≤ 9)
    (R : DRep AllNodes D a M) {fuel : Nat} (hf : D ≤ fuel) :
    ∃ os, (impl α D).iterRun a fuel (64 ^ D) = .ok os ∧ itemsOf os = listing (64 ^ D) M :=
  items_of_isTree (isTreeC_of_rep h1 h9 R).isTree hf

/-- The map holding `i ↦ i` for the indices in `l`. -/
def diag (l : List Nat) (i : Nat) : Option Nat := if i ∈ l then some i else none

theorem diag_snoc (l : List Nat) (x : Nat) : put (diag l) x (some x) = diag (l ++ [x]) := by
  funext i
  by_cases h : i = x
  · simp [put, diag, h]
  · simp [put, diag, h]

theorem fill_spec (h1 : 1 ≤ D) (h5 : D ≤ 5) {n : Nat} (hn : n ≤ 64 ^ D) :
    ∃ a0 a, Dense.default Nat D = .ok a0 ∧
      (List.range n).foldlM (fun a i => assign D a i i) a0 = .ok a ∧
      DRep AllNodes D a (diag (List.range n)) := by
  obtain ⟨a0, e0, R0⟩ := Dense.default_rep Nat h1 (Nat.le_trans h5 (by decide))
  obtain ⟨a, e, R⟩ := foldlM_inv (f := fun a i => assign D a i i)
    (fun l (a : DT Nat) => DRep AllNodes D a (diag l)) (List.range n) [] a0
    (by have : diag [] = emptyMap := by funext i; simp [diag, emptyMap]
        rw [this]; exact R0)
    (fun done x s hx R => by
      rw [List.mem_range] at hx
      obtain ⟨a', e, R'⟩ := assign_spec h1 h5 R (k := x) (by omega) x
      exact ⟨a', e, by rw [← diag_snoc]; exact R'⟩)
  exact ⟨a0, a, e0, e, by simpa using R⟩

/-- **C76** (`test2`): for every depth 2 – 5 and every `COUNT` of keys in range. -/
theorem C76_test2 (h2 : 2 ≤ D) (h5 : D ≤ 5) {COUNT : Nat} (hc : COUNT ≤ 64 ^ D) :
    repoTest2 D COUNT = .ok () := by
  obtain ⟨a0, a, e0, e1, R⟩ := fill_spec (by omega) h5 hc
  obtain ⟨b, e2, R2⟩ := foldlM_inv (f := fun a i => do return (← removeQ D a i).1)
    (fun l (a : DT Nat) => DRep AllNodes D a (fun i => if i ∈ l then none else diag (List.range COUNT) i))
    (List.range COUNT) [] a (by simpa using R)
    (fun done x s hx R => by
      rw [List.mem_range] at hx
      obtain ⟨a', e, R'⟩ := removeQ_spec h2 h5 R (k := x) (by omega)
      refine ⟨a', by simp only [e, bind_ok, pure_eq_ok], ?_⟩
      have : put (fun i => if i ∈ done then none else diag (List.range COUNT) i) x none =
          fun i => if i ∈ done ++ [x] then none else diag (List.range COUNT) i := by
        funext i
        by_cases h : i = x
        · simp [put, h]
        · simp [put, h]
      rw [← this]; exact R')
  unfold repoTest2
  simp only [e0, bind_ok, e1]
  rw [forM_ok]
  · simp only [bind_ok, e2]
    refine forM_ok _ fun i hi => ?_
    rw [List.mem_range] at hi
    rw [get_spec R2 (by omega) (by omega) (by omega : i < 64 ^ D)]
    exact assertThat_ok (by simp [hi])
  · intro i hi
    have hi' := List.mem_range.1 hi
    rw [get_spec R (by omega) (by omega) (by omega : i < 64 ^ D)]
    exact assertThat_ok (by simp [diag, hi'])

theorem listing_diag {n m : Nat} (h : n ≤ m) :
    listing m (diag (List.range n)) = (List.range n).map fun i => (i, i) := by
  unfold listing
  induction m with
  | zero => have : n = 0 := by omega
            subst this; rfl
  | succ m ih =>
    rw [List.range_succ, List.filterMap_append]
    by_cases e : n = m + 1
    · subst e
      rw [List.range_succ, List.map_append]
      congr 1
      · have : ∀ k, k ≤ m → (List.range k).filterMap (fun i => (diag (List.range m ++ [m]) i).map fun d => (i, d)) =
            (List.range k).map fun i => (i, i) := by
          intro k hk
          induction k with
          | zero => rfl
          | succ k ih2 =>
            rw [List.range_succ, List.filterMap_append, List.map_append, ih2 (by omega)]
            simp [diag, show k < m by omega]
        exact this m (Nat.le_refl m)
      · simp [diag]
    · rw [ih (by omega)]
      have : ¬ m < n := by omega
      simp [diag, this]

/-- **C76** (`insert_test2`): for every depth 1 – 5 and every `COUNT` of keys in range. -/
theorem C76_insert_test2 (h1 : 1 ≤ D) (h5 : D ≤ 5) {COUNT : Nat} (hc : COUNT ≤ 64 ^ D) {fuel : Nat}
    (hf : D ≤ fuel) : repoInsertTest2 fuel D COUNT = .ok () := by
  obtain ⟨a0, a, e0, e1, R⟩ := fill_spec h1 h5 hc
  obtain ⟨os, e2, e3⟩ := items_of_rep h1 (by omega) R hf
  rw [listing_diag hc] at e3
  have hcount : ∀ (m i : Nat), ((List.range m).map fun j => (i + j, i + j)).foldlM
      (fun i (kv : Nat × Nat) => do
        assertThat (kv.1 = kv.2)
        assertThat (kv.1 = i)
        return i + 1) i = .ok (i + m) := by
    intro m
    induction m with
    | zero => intro i; rfl
    | succ m ih =>
      intro i
      rw [List.range_succ_eq_map, List.map_cons, List.map_map, List.foldlM_cons]
      have : (fun j => (i + j, i + j)) ∘ Nat.succ = fun j => (i + 1 + j, i + 1 + j) := by
        funext j
        simp only [Function.comp_def, Prod.mk.injEq, and_self]
        omega
      rw [this]
      have e : (do
          assertThat (decide ((i + 0, i + 0).1 = (i + 0, i + 0).2))
          assertThat (decide ((i + 0, i + 0).1 = i))
          return i + 1 : Except Err Nat) = .ok (i + 1) := by simp [assertThat]
      rw [e]
      show List.foldlM _ (i + 1) _ = _
      rw [ih (i + 1)]
      congr 1; omega
  unfold repoInsertTest2
  simp only [e0, bind_ok, e1]
  rw [forM_ok]
  · simp only [bind_ok, e2, e3]
    have := hcount COUNT 0
    simp only [Nat.zero_add] at this
    rw [this]
    simp only [bind_ok]
    exact assertThat_ok (by rw [List.map_map]; exact List.map_id _)
  · intro i hi
    have hi' := List.mem_range.1 hi
    rw [get_spec R (by omega) (by omega) (by omega : i < 64 ^ D)]
    simp only [bind_ok, diag, List.mem_range, hi', if_true, unwrapP]
    rfl

/-! ### `fuzzy_test` -/

/-- The tests only store `Data(v)` at index `v`, in range. -/
def Diag (D : Nat) (M : Nat → Option Nat) : Prop := ∀ k v, M k = some v → v = k ∧ k < 64 ^ D

theorem listing_values {β : Type} (n : Nat) (M : Nat → Option β) : (listing n M).map (·.2) = valuesOf n M := by
  unfold listing valuesOf
  rw [List.map_filterMap]
  congr 1
  funext i
  cases M i <;> rfl

theorem valuesOf_diag {n : Nat} (hd : Diag D M) : valuesOf n M = keysOf n M := by
  unfold valuesOf keysOf
  rw [← List.filterMap_eq_filter]
  congr 1
  funext i
  cases hM : M i with
  | none => simp [Option.guard, hM]
  | some v => rw [(hd i v hM).1]; simp [Option.guard, hM]

theorem keysOf_sorted {β : Type} (n : Nat) (M : Nat → Option β) :
    (keysOf n M).Pairwise (fun a b => decide (a ≤ b) = true) := by
  unfold keysOf
  refine List.Pairwise.filter _ ?_
  have h := List.pairwise_lt_range (n := n)
  exact h.imp fun h => by simp; omega

theorem mergeSort_perm_eq {l l' : List Nat} (h : l.Perm l')
    (hs : l'.Pairwise (fun a b => decide (a ≤ b) = true)) : l.mergeSort = l' := by
  have h1 : (l.mergeSort).Pairwise (fun a b => decide (a ≤ b) = true) :=
    List.pairwise_mergeSort (fun a b c h1 h2 => by simp at *; omega)
      (fun a b => by simp; omega) l
  exact List.Perm.eq_of_pairwise (fun a b _ _ h1 h2 => by simp at *; omega) h1 hs
    ((List.mergeSort_perm l _).trans h)

theorem mapM_unwrapU {β : Type} : ∀ vs : List β, (vs.map some).mapM unwrapU = (.ok vs : R (List β))
  | [] => rfl
  | v :: vs => by
    rw [List.map_cons, List.mapM_cons, mapM_unwrapU vs]
    rfl

theorem fuzzyCheck_ok (h1 : 1 ≤ D) (h5 : D ≤ 5) {fuel : Nat} (hf : D ≤ fuel)
    {hIter : (Nat → Option Nat) → List (Nat × Nat)} (hI : (hIter M).Perm (listing (64 ^ D) M))
    (R : DRep AllNodes D a M) (hd : Diag D M) {looks : List Nat} (hl : ∀ k ∈ looks, k < 64 ^ D) :
    fuzzyCheck fuel D hIter a M looks = .ok () := by
  have h9 : D ≤ 9 := by omega
  obtain ⟨os, e1, e2⟩ := items_of_rep h1 h9 R hf
  obtain ⟨ks, vs, e3, e4, e5, e6⟩ := keyValues_spec R
  have hv := (values_perm e4 e5 e6).2
  rw [valuesOf_diag hd] at hv
  have hT := (isTreeC_of_rep h1 h9 R).isTree
  have s1 : (itemsOf os).map (·.2) = keysOf (64 ^ D) M := by
    rw [e2, listing_values, valuesOf_diag hd]
  have s2 : vs.mergeSort = keysOf (64 ^ D) M := mergeSort_perm_eq hv (keysOf_sorted _ _)
  have s3 : ((hIter M).map (·.2)).mergeSort = keysOf (64 ^ D) M := by
    refine mergeSort_perm_eq ?_ (keysOf_sorted _ _)
    have := hI.map (·.2)
    rw [listing_values, valuesOf_diag hd] at this
    exact this
  unfold fuzzyCheck
  simp only [e1, bind_ok, e3, mapM_unwrapU]
  rw [assertThat_ok (s1.trans s2.symm), assertThat_ok (s2.trans s3.symm)]
  simp only [bind_ok]
  rw [forM_ok]
  · simp only [bind_ok]
    refine forM_ok _ fun k hk => ?_
    rw [get_spec R h1 h9 (hl k hk)]
    exact assertThat_ok rfl
  · rintro ⟨k, v⟩ hm
    have hm' := hI.mem_iff.1 hm
    rw [(listing_spec _ _).2] at hm'
    have hg := get_spec R h1 h9 hm'.1
    rw [hm'.2] at hg
    simp only [hg, bind_ok, unwrapP, contract_get_unchecked hT hg]
    simp [assertThat]

theorem diag_put {k : Nat} (hd : Diag D M) (hk : k < 64 ^ D) : Diag D (put M k (some k)) := by
  intro k' v h
  by_cases e : k' = k
  · subst e; simp [put] at h; exact ⟨h.symm, hk⟩
  · simp [put, e] at h; exact hd k' v h

theorem diag_remove {k : Nat} (hd : Diag D M) : Diag D (put M k none) := by
  intro k' v h
  by_cases e : k' = k
  · subst e; simp [put] at h
  · simp [put, e] at h; exact hd k' v h

/-- **C76** (`fuzzy_test`): for every depth 2 – 5, whatever random numbers (in range) the generator
yields, in any number of rounds of any length, and in whatever order the `HashMap` iterates. -/
theorem C76_fuzzy (h2 : 2 ≤ D) (h5 : D ≤ 5) {fuel : Nat} (hf : D ≤ fuel)
    {hIter : (Nat → Option Nat) → List (Nat × Nat)}
    (hI : ∀ M, (hIter M).Perm (listing (64 ^ D) M)) {rounds : List FuzzyRound} {looks : List Nat}
    (hr : ∀ r ∈ rounds, (∀ k ∈ r.inserts, k < 64 ^ D) ∧ (∀ k ∈ r.looks, k < 64 ^ D) ∧
      (∀ k ∈ r.removes, k < 64 ^ D) ∧ ∀ k ∈ r.looks', k < 64 ^ D)
    (hl : ∀ k ∈ looks, k < 64 ^ D) : repoFuzzyTest fuel D hIter rounds looks = .ok () := by
  have h1 : 1 ≤ D := by omega
  obtain ⟨a0, e0, R0⟩ := Dense.default_rep Nat h1 (Nat.le_trans h5 (by decide))
  obtain ⟨⟨a, M⟩, e1, R, hd⟩ := foldlM_inv (f := fuzzyRound fuel D hIter)
    (fun _ st => DRep AllNodes D st.1 st.2 ∧ Diag D st.2) rounds [] (a0, emptyMap)
    ⟨R0, fun k v h => by cases h⟩
    (by
      rintro - r ⟨a, M⟩ hm ⟨R, hd⟩
      obtain ⟨q1, q2, q3, q4⟩ := hr r hm
      obtain ⟨⟨a1, M1⟩, e1, R1, hd1⟩ := foldlM_inv
        (f := fun (st : DT Nat × (Nat → Option Nat)) v => do
          return (← assign D st.1 v v, put st.2 v (some v)))
        (fun _ st => DRep AllNodes D st.1 st.2 ∧ Diag D st.2) r.inserts [] (a, M) ⟨R, hd⟩
        (by
          rintro - k ⟨a, M⟩ hk ⟨R, hd⟩
          obtain ⟨a', e, R'⟩ := assign_spec h1 h5 R (q1 k hk) k
          exact ⟨(a', put M k (some k)), by simp only [e, bind_ok, pure_eq_ok], R', diag_put hd (q1 k hk)⟩)
      obtain ⟨⟨a2, M2⟩, e2, R2, hd2⟩ := foldlM_inv
        (f := fun (st : DT Nat × (Nat → Option Nat)) v => do
          return ((← removeQ D st.1 v).1, put st.2 v none))
        (fun _ st => DRep AllNodes D st.1 st.2 ∧ Diag D st.2) r.removes [] (a1, M1) ⟨R1, hd1⟩
        (by
          rintro - k ⟨a, M⟩ hk ⟨R, hd⟩
          obtain ⟨a', e, R'⟩ := removeQ_spec h2 h5 R (q3 k hk)
          exact ⟨(a', put M k none), by simp only [e, bind_ok, pure_eq_ok], R', diag_remove hd⟩)
      refine ⟨(a2, M2), ?_, R2, hd2⟩
      unfold fuzzyRound
      rw [e1]
      simp only [bind_ok, fuzzyCheck_ok h1 h5 hf (hI M1) R1 hd1 q2]
      rw [e2]
      simp only [bind_ok, fuzzyCheck_ok h1 h5 hf (hI M2) R2 hd2 q4]
      rfl)
  obtain ⟨b, e2, R2⟩ := foldlM_inv (f := fun a (kv : Nat × Nat) => do return (← removeQ D a kv.1).1)
    (fun l (a : DT Nat) => DRep AllNodes D a (fun i => if i ∈ l.map (fun kv : Nat × Nat => kv.1) then none else M i))
    (hIter M) [] a (by simpa using R)
    (by
      rintro done ⟨k, v⟩ s hx R
      have hk := ((listing_spec _ _).2 k v).1 ((hI M).mem_iff.1 hx)
      obtain ⟨a', e, R'⟩ := removeQ_spec h2 h5 R hk.1
      refine ⟨a', by simp only [e, bind_ok, pure_eq_ok], ?_⟩
      have : put (fun i => if i ∈ done.map (fun kv : Nat × Nat => kv.1) then none else M i) k none =
          fun i => if i ∈ (done ++ [(k, v)]).map (fun kv : Nat × Nat => kv.1) then none else M i := by
        funext i
        have hm : i ∈ (done ++ [(k, v)]).map (fun kv : Nat × Nat => kv.1) ↔
            i ∈ done.map (fun kv : Nat × Nat => kv.1) ∨ i = k := by
          rw [List.map_append, List.mem_append]
          exact or_congr Iff.rfl (by simp only [List.map_cons, List.map_nil, List.mem_singleton])
        simp only [hm, put]
        by_cases h : i = k
        · simp only [h, if_true, or_true]
        · simp only [h, if_false, or_false]
      rw [← this]; exact R')
  have hz : (fun i => if i ∈ ([] ++ hIter M).map (fun kv : Nat × Nat => kv.1) then none else M i) = (emptyMap : Nat → Option Nat) := by
    funext i
    by_cases h : i ∈ ([] ++ hIter M).map (fun kv : Nat × Nat => kv.1)
    · rw [if_pos h]; rfl
    · rw [if_neg h]
      cases hM : M i with
      | none => rfl
      | some v =>
        exfalso
        apply h
        rw [List.nil_append, List.mem_map]
        exact ⟨(i, v), (hI M).mem_iff.2 (((listing_spec _ _).2 i v).2 ⟨(hd i v hM).2, hM⟩), rfl⟩
  rw [hz] at R2
  unfold repoFuzzyTest
  simp only [e0, bind_ok, e1, e2]
  exact fuzzyCheck_ok h1 h5 hf (hI _) R2 (fun k v h => by cases h) hl

/-! ### `materialize_test` -/

theorem fill2_spec (h1 : 1 ≤ D) (h5 : D ≤ 5) {vs : List Nat} (hv : ∀ v ∈ vs, v < 64 ^ D) {a0 : DT Nat}
    (R0 : DRep AllNodes D a0 emptyMap) : ∃ a1 a2,
      vs.foldlM (fun (st : DT Nat × DT Nat) v => do
        return (← insertQ D st.1 v v, ← insertQ D st.2 v v)) (a0, a0) = .ok (a1, a2) ∧
      DRep AllNodes D a1 (diag vs) ∧ DRep AllNodes D a2 (diag vs) := by
  have hz : diag [] = emptyMap := by funext i; simp [diag, emptyMap]
  obtain ⟨⟨a1, a2⟩, e, R1, R2⟩ := foldlM_inv
    (f := fun (st : DT Nat × DT Nat) v => do
        return (← insertQ D st.1 v v, ← insertQ D st.2 v v))
    (fun l st => DRep AllNodes D st.1 (diag l) ∧ DRep AllNodes D st.2 (diag l)) vs [] (a0, a0)
    (by rw [hz]; exact ⟨R0, R0⟩)
    (by
      rintro done v ⟨a, b⟩ hm ⟨Ra, Rb⟩
      obtain ⟨a', ea, Ra'⟩ := insertQ_spec h1 h5 Ra (hv v hm) v
      obtain ⟨b', eb, Rb'⟩ := insertQ_spec h1 h5 Rb (hv v hm) v
      rw [diag_snoc] at Ra' Rb'
      exact ⟨(a', b'), by simp only [ea, eb, bind_ok, pure_eq_ok], Ra', Rb'⟩)
  exact ⟨a1, a2, e, R1, R2⟩

theorem items_of_materialized {S C α : Type} {I : Impl S C α} {s : S} {M : Nat → Option α}
    (h : IsTree I s M) (hN : I.N = 1) {t : DT α}
    (ht : ∃ F, ∀ fuel, F ≤ fuel → ∀ n, (impl α I.D).iterRun t fuel n = I.iterRun s fuel n) :
    ∃ F, ∀ fuel, F ≤ fuel → ∃ os, (impl α I.D).iterRun t fuel (64 ^ I.D) = .ok os ∧
      itemsOf os = listing (64 ^ I.D) M := by
  obtain ⟨F1, hF1⟩ := contract_iter h
  obtain ⟨F2, hF2⟩ := ht
  refine ⟨max F1 F2, fun fuel hf => ⟨_, (hF2 fuel (by omega) _).trans (hF1 fuel (by omega) _), ?_⟩⟩
  have hW : width I.N = 64 := by rw [hN]; rfl
  rw [hW]
  exact itemsOf_range _ _ (listing_length_le _ _)

/-- **C76** (`materialize_test`): for every depth 1 – 5 and every non-empty list of random indices in range.
(For the empty list the materialization of the intersection is undefined behaviour: `C76_materialize_empty`.) -/
theorem C76_materialize (h1 : 1 ≤ D) (h5 : D ≤ 5) {vs : List Nat} (hne : vs ≠ [])
    (hv : ∀ v ∈ vs, v < 64 ^ D) : ∃ F, ∀ fuel, F ≤ fuel → repoMaterializeTest fuel D vs = .ok () := by
  have h9 : D ≤ 9 := by omega
  obtain ⟨a0, e0, R0⟩ := Dense.default_rep Nat h1 h9
  obtain ⟨a1, a2, e1, R1, R2⟩ := fill2_spec h1 h5 hv R0
  have T1 := isTreeC_of_rep h1 h9 R1
  have T2 := isTreeC_of_rep h1 h9 R2
  have A1 := map_isTree (fun d => d) T1.isTree
  have A2 := map_isTree (fun e : Nat × Nat => e.1) (inter_isTree rfl rfl T1.isTree T2.isTree)
  have A3 := map_isTree (fun e : Option Nat × Option Nat => e.1) (union_isTree rfl rfl T1 T2).isTree
  obtain ⟨t1, m1, -, i1, -, -⟩ := contract_materialize_exact A1 rfl rfl h9 (card_small h5 _)
  obtain ⟨t3, m3, -, i3, -, -⟩ := contract_materialize_exact A3 rfl rfl h9 (card_small h5 _)
  have q2 : ∃ t2, materialize (mapImpl (interImpl (impl Nat D) (impl Nat D)) fun e => e.1) (a1, a2) = .ok t2 ∧
      ∃ F, ∀ fuel, F ≤ fuel → ∀ n, (impl Nat D).iterRun t2 fuel n =
        (mapImpl (interImpl (impl Nat D) (impl Nat D)) fun e => e.1).iterRun (a1, a2) fuel n := by
    rcases contract_materialize A2 rfl rfl h9 (card_small h5 _) with ⟨t, e, hr, -⟩ | ⟨-, -, hno⟩
    · exact ⟨t, e, hr.2.1⟩
    · exfalso
      obtain ⟨v, hm⟩ := List.exists_mem_of_ne_nil _ hne
      have := hno v (hv v hm)
      simp [interMap, diag, hm] at this
  obtain ⟨t2, m2, i2⟩ := q2
  obtain ⟨F1, hF1⟩ := items_of_materialized A1 rfl i1
  obtain ⟨F2, hF2⟩ := items_of_materialized A2 rfl i2
  obtain ⟨F3, hF3⟩ := items_of_materialized A3 rfl i3
  have c1 : (fun i => (diag vs i).map (fun d => d)) = diag vs := by
    funext i; cases diag vs i <;> rfl
  have c2 : (fun i => (interMap (diag vs) (diag vs) i).map (fun e : Nat × Nat => e.1)) = diag vs := by
    funext i; simp only [interMap]; cases diag vs i <;> rfl
  have c3 : (fun i => (unionMap (diag vs) (diag vs) i).map (fun e : Option Nat × Option Nat => e.1)) =
      fun i => (diag vs i).map some := by
    funext i; simp only [unionMap]; cases diag vs i <;> rfl
  refine ⟨max D (max F1 (max F2 F3)), fun fuel hf => ?_⟩
  obtain ⟨os0, r0, l0⟩ := items_of_rep h1 h9 R1 (fuel := fuel) (by omega)
  obtain ⟨os1, r1, l1⟩ := hF1 fuel (by omega)
  obtain ⟨os2, r2, l2⟩ := hF2 fuel (by omega)
  obtain ⟨os3, r3, l3⟩ := hF3 fuel (by omega)
  rw [c1] at l1
  rw [c2] at l2
  rw [c3] at l3
  replace r1 : (impl Nat D).iterRun t1 fuel (64 ^ D) = .ok os1 := r1
  replace r2 : (impl Nat D).iterRun t2 fuel (64 ^ D) = .ok os2 := r2
  replace r3 : (impl (Option Nat) D).iterRun t3 fuel (64 ^ D) = .ok os3 := r3
  have l3' : itemsOf os3 = (itemsOf os0).map fun kv => (kv.1, some kv.2) := by
    rw [l0, l3]
    show listing (64 ^ D) _ = _
    unfold listing
    rw [List.map_filterMap]
    congr 1
    funext i
    show ((diag vs i).map some).map _ = _
    cases diag vs i <;> rfl
  unfold repoMaterializeTest
  simp only [e0, bind_ok]
  rw [e1]
  simp only [bind_ok, r0, m1, r1, m2, r2, m3, r3]
  rw [assertThat_ok (show itemsOf os1 = itemsOf os0 from l1.trans l0.symm),
    assertThat_ok (show itemsOf os2 = itemsOf os0 from l2.trans l0.symm), assertThat_ok l3']
  rfl

/-- With no index at all the test itself has undefined behaviour (finding 3): it materializes the empty
intersection. -/
theorem C76_materialize_empty (h2 : 2 ≤ D) (h5 : D ≤ 5) :
    ∃ F, ∀ fuel, F ≤ fuel → repoMaterializeTest fuel D [] = .error .ub := by
  have h1 : 1 ≤ D := by omega
  have h9 : D ≤ 9 := by omega
  obtain ⟨a0, e0, R0⟩ := Dense.default_rep Nat h1 h9
  have T1 := isTreeC_of_rep h1 h9 R0
  have A1 := map_isTree (fun d => d) T1.isTree
  obtain ⟨t1, m1, -, i1, -, -⟩ := contract_materialize_exact A1 rfl rfl h9 (card_small h5 _)
  obtain ⟨F1, hF1⟩ := items_of_materialized A1 rfl i1
  have m2 : materialize (mapImpl (interImpl (impl Nat D) (impl Nat D)) fun e => e.1) (a0, a0) = .error .ub := by
    have : D = 2 ∨ D = 3 ∨ D = 4 ∨ D = 5 := by omega
    rcases this with rfl | rfl | rfl | rfl <;> cases e0 <;>
      exact C43_fails_empty_root (by decide) rfl rfl rfl
  have c1 : (fun i => ((emptyMap : Nat → Option Nat) i).map (fun d => d)) = emptyMap := by
    funext i; rfl
  refine ⟨max D F1, fun fuel hf => ?_⟩
  obtain ⟨os0, r0, l0⟩ := items_of_rep h1 h9 R0 (fuel := fuel) (by omega)
  obtain ⟨os1, r1, l1⟩ := hF1 fuel (by omega)
  replace r1 : (impl Nat D).iterRun t1 fuel (64 ^ D) = .ok os1 := r1
  unfold repoMaterializeTest
  simp only [e0, bind_ok, List.foldlM_nil, pure_eq_ok, r0, m1, r1]
  rw [assertThat_ok (show itemsOf os1 = itemsOf os0 from l1.trans l0.symm)]
  simp only [bind_ok, m2]
  rfl

/-- The test as the repository runs it: depth 3, rounds of insertions and removals (two short ones here),
with a `HashMap` iterating in descending order. -/
example : repoFuzzyTest 3 3 (fun h => (listing (64 ^ 3) h).reverse)
    [⟨[5, 259999, 5, 70], [5, 6], [70, 71], [70]⟩, ⟨[1], [1], [], [2]⟩] [5] = .ok () :=
  C76_fuzzy (by decide) (by decide) (by decide) (fun _ => List.reverse_perm _)
    (by decide) (by decide)

/-- The test as the repository runs it: depth 4. -/
example : ∃ F, ∀ fuel, F ≤ fuel → repoMaterializeTest fuel 4 [7, 259999, 7, 64] = .ok () :=
  C76_materialize (by decide) (by decide) (by decide) (by decide)

end

end Hibit.Props
