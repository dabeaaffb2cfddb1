import Verif.Props.Readme
/-!
# Property C52: the example program examples/sparse_vector.rs

The whole example: a vector stored in blocks of four lanes in a `SparseTree` of width 64 and depth 2, filled by `set`,
multiplied by a mapped intersection, summed lane by lane. `f32` is replaced by `Int` (floating-point rounding is not
modelled).
-/
namespace Hibit.Props
open Hibit

/-! ## The program -/

/-- `f32x4` (examples/sparse_vector.rs:7-8 `DataBlock`). -/
abbrev Lanes := Fin 4 → Int

/-- `DataBlock::default()`, `f32x4::ZERO` (examples/sparse_vector.rs:7, 41). -/
def zeroLanes : Lanes := fun _ => 0

/-- `*block.0.as_array_mut().get_unchecked_mut(i) = value` (examples/sparse_vector.rs:25). -/
def setLane (i : Fin 4) (value : Int) (b : Lanes) : Lanes := fun j => if j = i then value else b j

/-- `SparseVector::default()` (examples/sparse_vector.rs:10-15). -/
def vecNew : Sparse.ST Lanes := Sparse.default Lanes 1 2 (some zeroLanes)

/-- `set(index, value)` (examples/sparse_vector.rs:18-27). -/
def vecSet (v : Sparse.ST Lanes) (index : Nat) (value : Int) : R (Sparse.ST Lanes) := do
  let out ← Sparse.getOrInsert 1 2 v (index / 4) zeroLanes
  let (v, _) ← Sparse.writeRef out.tree out.dataIndex
    (setLane ⟨index % 4, Nat.mod_lt _ (by decide)⟩ value)
  return v

/-- `main`'s sequence of calls of `set`. -/
def vecSets (v : Sparse.ST Lanes) : List (Nat × Int) → R (Sparse.ST Lanes)
  | [] => .ok v
  | (i, x) :: sets => do
    let v ← vecSet v i x
    vecSets v sets

/-- `mul(v1, v2)` (examples/sparse_vector.rs:31-36). -/
def vecMul := mapImpl (interImpl (Sparse.impl Lanes 1 2) (Sparse.impl Lanes 1 2))
  fun e : Lanes × Lanes => fun j => e.1 j * e.2 j

/-- `dot(v1, v2)` (examples/sparse_vector.rs:38-46): `sum += block` over the items of `n` calls of `next`, then
`reduce_add()`. -/
def vecDot (v1 v2 : Sparse.ST Lanes) (fuel n : Nat) : R Int := do
  let os ← vecMul.iterRun (v1, v2) fuel n
  let sum := ((itemsOf os).map (·.2)).foldl (fun s b j => s j + b j) zeroLanes
  return sum 0 + sum 1 + sum 2 + sum 3

/-! ## Specification -/

/-- The vector after the calls of `set`: at each position the last value set, or 0. -/
def vecOf (sets : List (Nat × Int)) : Nat → Int :=
  sets.foldl (fun v e => fun j => if j = e.1 then e.2 else v j) fun _ => 0

/-! ## Proof -/

/-- A call of `set` as an operation of the tree. -/
def setOp (e : Nat × Int) : Sparse.Op Lanes :=
  .getOrInsert (e.1 / 4) zeroLanes (setLane ⟨e.1 % 4, Nat.mod_lt _ (by decide)⟩ e.2)

theorem vecSets_run : ∀ (sets : List (Nat × Int)) (v v' : Sparse.ST Lanes) os,
    Sparse.run 1 2 v (sets.map setOp) = .ok (v', os) → vecSets v sets = .ok v'
  | [], v, v', os, h => by cases h; rfl
  | (i, x) :: sets, v, v', os, h => by
    simp only [List.map_cons, Sparse.run, setOp, Sparse.step] at h
    simp only [vecSets, vecSet]
    cases h1 : Sparse.getOrInsert 1 2 v (i / 4) zeroLanes with
    | error e => rw [h1] at h; cases h
    | ok out =>
      rw [h1] at h
      simp only [bind_ok] at h ⊢
      cases h2 : Sparse.writeRef out.tree out.dataIndex (setLane ⟨i % 4, Nat.mod_lt _ (by decide)⟩ x) with
      | error e => rw [h2] at h; cases h
      | ok r =>
        rw [h2] at h
        simp only [bind_ok, pure_eq_ok] at h ⊢
        cases h3 : Sparse.run 1 2 r.1 (sets.map setOp) with
        | error e => rw [show sets.map _ = _ from rfl] at h; simp only [h3] at h; cases h
        | ok q =>
          simp only [h3, bind_ok] at h
          cases h
          exact vecSets_run sets r.1 _ _ h3

/-- The vector stored in a tree. -/
def vecView (M : Nat → Option Lanes) (i : Nat) : Int :=
  (M (i / 4)).getD zeroLanes ⟨i % 4, Nat.mod_lt _ (by decide)⟩

theorem vecView_set (M : Nat → Option Lanes) (e : Nat × Int) :
    vecView ((setOp e).spec (some zeroLanes) M).1 = fun j => if j = e.1 then e.2 else vecView M j := by
  funext j
  simp only [vecView, setOp, Sparse.Op.spec, put]
  by_cases hj : j = e.1
  · subst hj; simp [setLane]
  · rw [if_neg hj]
    by_cases h4 : j / 4 = e.1 / 4
    · rw [if_pos h4, h4]
      simp only [Option.getD_some, setLane]
      rw [if_neg]
      intro h
      have := congrArg Fin.val h
      simp only at this
      omega
    · rw [if_neg h4]

theorem vecView_run : ∀ (sets : List (Nat × Int)) (M : Nat → Option Lanes),
    vecView (Sparse.specRun (some zeroLanes) M (sets.map setOp)).1 =
      sets.foldl (fun v e => fun j => if j = e.1 then e.2 else v j) (vecView M)
  | [], M => rfl
  | e :: sets, M => by
    simp only [List.map_cons, Sparse.specRun, List.foldl_cons]
    rw [vecView_run sets, vecView_set]

theorem sum_range4 (f : Nat → Int) : ∀ n, ((List.range (4 * n)).map f).sum =
    ((List.range n).map fun k => f (4 * k) + f (4 * k + 1) + f (4 * k + 2) + f (4 * k + 3)).sum
  | 0 => rfl
  | n + 1 => by
    rw [show 4 * (n + 1) = 4 * n + 1 + 1 + 1 + 1 by omega]
    simp only [List.range_succ, List.map_append, List.sum_append, sum_range4 f n, List.map_cons, List.map_nil,
      List.sum_cons, List.sum_nil]
    omega

theorem foldl_lanes (j : Fin 4) : ∀ (bs : List Lanes) (s : Lanes),
    bs.foldl (fun s b j => s j + b j) s j = s j + (bs.map fun b => b j).sum
  | [], s => by simp
  | b :: bs, s => by
    rw [List.foldl_cons, foldl_lanes j bs]
    simp only [List.map_cons, List.sum_cons]
    omega

theorem sum_lane {β : Type} (f : β → Int) (M : Nat → Option β) : ∀ n,
    ((listing n M).map fun e => f e.2).sum = ((List.range n).map fun k => ((M k).map f).getD 0).sum := by
  intro n
  unfold listing
  rw [List.map_filterMap]
  induction n with
  | zero => rfl
  | succ n ih =>
    rw [List.range_succ, List.filterMap_append, List.sum_append, ih, List.map_append, List.sum_append]
    congr 1
    rw [List.filterMap_cons]
    cases hM : M n <;> simp [hM]

theorem setOps_history (sets : List (Nat × Int)) (h : ∀ e ∈ sets, e.1 < 16384) :
    SparseHistory 1 2 (some zeroLanes) (sets.map setOp) := by
  refine .of_small ⟨by decide, by decide, by decide⟩ (.inl ⟨rfl, by decide⟩) fun op ho => ?_
  obtain ⟨e, he, rfl⟩ := List.mem_map.1 ho
  have := h e he
  show e.1 / 4 < Sparse.keyRange 1 2
  have : Sparse.keyRange 1 2 = 4096 := by decide
  omega

/-- **C52**, examples/sparse_vector.rs as a whole: whatever positions below 4·64² = 16384 are `set`, in any order and
any number of times, the vectors are built without error and `dot` returns the sum of the products of the values last
set, unset positions counting as 0. -/
theorem C52_sparse_vector (sets sets' : List (Nat × Int)) (h : ∀ e ∈ sets, e.1 < 16384)
    (h' : ∀ e ∈ sets', e.1 < 16384) :
    ∃ v v', vecSets vecNew sets = .ok v ∧ vecSets vecNew sets' = .ok v' ∧
      ∃ F, ∀ fuel, F ≤ fuel → ∀ n, 4096 ≤ n → vecDot v v' fuel n =
        .ok ((List.range 16384).map fun i => vecOf sets i * vecOf sets' i).sum := by
  have H := setOps_history sets h
  have H' := setOps_history sets' h'
  obtain ⟨v, e, -⟩ := H.reachCap (cap := Sparse.idxCap) (Sparse.idxCap_ok 2) H.fits
  obtain ⟨v', e', -⟩ := H'.reachCap (cap := Sparse.idxCap) (Sparse.idxCap_ok 2) H'.fits
  refine ⟨v, v', vecSets_run _ _ _ _ e, vecSets_run _ _ _ _ e', ?_⟩
  have T := (sparse_isTree H ⟨_, e⟩).isTree
  have T' := (sparse_isTree H' ⟨_, e'⟩).isTree
  generalize hA : (Sparse.specRun (some zeroLanes) emptyMap (sets.map setOp)).1 = A at T
  generalize hB : (Sparse.specRun (some zeroLanes) emptyMap (sets'.map setOp)).1 = B at T'
  have vA : vecOf sets = vecView A := by rw [← hA, vecView_run]; rfl
  have vB : vecOf sets' = vecView B := by rw [← hB, vecView_run]; rfl
  obtain ⟨F, hF⟩ := collect_spec (map_isTree (fun (e : Lanes × Lanes) (j : Fin 4) => e.1 j * e.2 j)
    (inter_isTree (I0 := Sparse.impl Lanes 1 2) (I1 := Sparse.impl Lanes 1 2) rfl rfl T T'))
  refine ⟨F, fun fuel hf n hn => ?_⟩
  obtain ⟨os, e1, e2⟩ := hF fuel hf n (Nat.le_trans (by decide) hn)
  have e2' : itemsOf os = listing 4096 (fun i => (interMap A B i).map fun e j => e.1 j * e.2 j) := e2
  unfold vecDot
  have e1' : vecMul.iterRun (v, v') fuel n = .ok os := e1
  rw [e1', bind_ok]
  simp only [pure_eq_ok, foldl_lanes, e2', List.map_map, zeroLanes]
  rw [vA, vB, show (16384 : Nat) = 4 * 4096 from rfl, sum_range4]
  have lane : ∀ (m : Nat) (j : Fin 4), ((listing m (fun i => (interMap A B i).map
      fun e j => e.1 j * e.2 j)).map ((fun b : Lanes => b j) ∘ fun x => x.2)).sum =
      ((List.range m).map fun k => (A k).getD zeroLanes j * (B k).getD zeroLanes j).sum := by
    intro m j
    refine (sum_lane (fun b : Lanes => b j) _ m).trans ?_
    congr 1
    apply List.map_congr_left
    intro k _
    unfold interMap
    cases A k <;> cases B k <;> simp [zeroLanes]
  rw [lane _ 0, lane _ 1, lane _ 2, lane _ 3]
  have view : ∀ (M : Nat → Option Lanes) (k : Nat) (j : Fin 4), vecView M (4 * k + j.1) = (M k).getD zeroLanes j := by
    intro M k j
    have hj := j.2
    have e1 : (4 * k + j.1) / 4 = k := by omega
    have e2 : (⟨(4 * k + j.1) % 4, Nat.mod_lt _ (by decide)⟩ : Fin 4) = j :=
      Fin.ext (show (4 * k + j.1) % 4 = j.1 by omega)
    simp only [vecView, e1, e2]
  have hf4 : ∀ k : Nat, vecView A (4 * k) * vecView B (4 * k) + vecView A (4 * k + 1) * vecView B (4 * k + 1) +
      vecView A (4 * k + 2) * vecView B (4 * k + 2) + vecView A (4 * k + 3) * vecView B (4 * k + 3) =
      (A k).getD zeroLanes 0 * (B k).getD zeroLanes 0 + (A k).getD zeroLanes 1 * (B k).getD zeroLanes 1 +
      (A k).getD zeroLanes 2 * (B k).getD zeroLanes 2 + (A k).getD zeroLanes 3 * (B k).getD zeroLanes 3 := by
    intro k
    rw [← view A k 0, ← view A k 1, ← view A k 2, ← view A k 3, ← view B k 0, ← view B k 1, ← view B k 2,
      ← view B k 3]
    rfl
  generalize List.range 4096 = l
  refine congrArg Except.ok ?_
  simp only [hf4]
  induction l with
  | nil => rfl
  | cons k l ih =>
    simp only [List.map_cons, List.sum_cons] at ih ⊢
    omega

/-- The example's `main`, with 7 for 0.5: 1·1 + 100·7, and positions 10 and 11 sharing a block. -/
example : (do
    let v1 ← vecSets vecNew [(10, 1), (20, 10), (30, 100), (11, 3)]
    let v2 ← vecSets vecNew [(10, 1), (30, 5), (30, 7)]
    vecDot v1 v2 9 4 : R _) = .ok 701 := by decide +kernel

/-- `set` outside the vector panics. -/
example : (do
    let _ ← vecSets vecNew [(10, 1), (16384, 10)]
    return () : R _) = .error .panic := by rfl

end Hibit.Props
