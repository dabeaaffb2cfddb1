import Verif.Dense.History
import Verif.Sparse.History
/-!
# Destructors that panic

`bad v` says that the destructor of the value `v` panics. The Rust rules used:
* dropping a slice or a `Vec` runs the destructors in order; if one unwinds, the rest is still
  dropped and the unwinding goes on; a second panic during the unwinding aborts the process;
* an assignment `*place = v` whose drop of the old value unwinds has stored `v` nevertheless;
* if `Drop::drop` unwinds, the fields of the struct are still dropped.
A slot is `none` when it is not initialised: never written, or already dropped.
-/
namespace Hibit
open Hibit

/-- How a call ends. -/
inductive Fate where
  | returns
  | unwinds
  | aborts
deriving DecidableEq, Repr

/-- `ptr::drop_in_place` of a slice / the drop of a `Vec`'s elements; `u`: already unwinding. The
values destroyed, in order, and how it ends. -/
def dropInPlace {α : Type} (bad : α → Bool) : Bool → List (Option α) → R (List α × Fate)
  | u, [] => .ok ([], if u then .unwinds else .returns)
  | u, v :: vs => do
    let v ← unwrapU v
    if bad v then
      if u then return ([v], .aborts)
      else
        let (l, f) ← dropInPlace bad true vs
        return (v :: l, f)
    else
      let (l, f) ← dropInPlace bad u vs
      return (v :: l, f)

/-- dense_tree.rs:312-343 `drop_impl` called by `Drop::drop`, then the drop of the fields. If
`drop_in_place` (dense_tree.rs:318) unwinds, `data.set_len(0)` (line 319) has not run: the field
`data` is dropped with its full length, element 0 never initialised and the others already dropped;
the nodes are leaked. Otherwise `data` has length 0 and the nodes are freed (line 322). -/
def Dense.dropWith {α : Type} (bad : α → Bool) (D : Nat) (t : Dense.DT α) :
    R (List α × Fate × Dense.Heap) := do
  if 1 ≤ t.data.length then
    let (vs, f) ← dropInPlace bad false (t.data.drop 1)
    match f with
    | .returns => do
      let h ← Dense.dropNodeWithChilds D t.heap t.root
      return (vs, .returns, h)
    | .aborts => return (vs, .aborts, t.heap)
    | .unwinds => do
      let (vs', f') ← dropInPlace bad true (t.data.take 1 ++ List.replicate (t.data.length - 1) none)
      return (vs ++ vs', f', t.heap)
  else .error .panic

/-- sparse_tree.rs:522-532, 567-576 as above; `required` is `R::REQUIRED` (then element 0 is
initialised and dropped with the others). -/
def Sparse.dropWith {α : Type} (bad : α → Bool) (required : Bool) (t : Sparse.ST α) :
    R (List α × Fate) := do
  let skip := if required then 0 else 1
  if skip ≤ t.values.length then
    let (vs, f) ← dropInPlace bad false (t.values.drop skip)
    match f with
    | .returns => return (vs, .returns)
    | .aborts => return (vs, .aborts)
    | .unwinds => do
      let (vs', f') ← dropInPlace bad true
        (t.values.take skip ++ List.replicate (t.values.length - skip) none)
      return (vs ++ vs', f')
  else .error .panic

/-- dense_tree.rs:186-189 `insert` (dense_tree.rs:162: the assignment drops the old value). -/
def Dense.insertWith {α : Type} (bad : α → Bool) (D : Nat) (t : Dense.DT α) (k : Nat) (v : α) :
    R (Dense.DT α × List α × Fate) := do
  let out ← Dense.insert D t k v
  return (out.tree, out.dropped, if out.dropped.any bad then .unwinds else .returns)

/-- sparse_tree.rs:388-391 `insert` (sparse_tree.rs:456: the assignment drops the old value). -/
def Sparse.insertWith {α : Type} (bad : α → Bool) (N D : Nat) (t : Sparse.ST α) (k : Nat) (v : α) :
    R (Sparse.ST α × List α × Fate) := do
  let out ← Sparse.insert N D t k v
  return (out.tree, out.dropped, if out.dropped.any bad then .unwinds else .returns)

theorem dropInPlace_none {α : Type} {bad : α → Bool} (u : Bool) {vs : List α}
    (h : vs.countP bad = 0) :
    dropInPlace bad u (vs.map some) = .ok (vs, if u then .unwinds else .returns) := by
  induction vs with
  | nil => rfl
  | cons v vs ih =>
    rw [List.countP_cons] at h
    have hv : bad v = false := by
      cases e : bad v with
      | false => rfl
      | true => rw [e] at h; simp at h
    simp only [List.map_cons, dropInPlace, unwrapU, bind_ok, hv, Bool.false_eq_true, if_false,
      ih (by omega), pure_eq_ok]

theorem dropInPlace_one {α : Type} {bad : α → Bool} {vs : List α} (h : vs.countP bad = 1) :
    dropInPlace bad false (vs.map some) = .ok (vs, .unwinds) := by
  induction vs with
  | nil => cases h
  | cons v vs ih =>
    rw [List.countP_cons] at h
    cases e : bad v with
    | false =>
      rw [e] at h
      simp only [List.map_cons, dropInPlace, unwrapU, bind_ok, e, Bool.false_eq_true, if_false,
        ih (by simpa using h), pure_eq_ok]
    | true =>
      rw [e] at h
      simp only [if_true] at h
      simp only [List.map_cons, dropInPlace, unwrapU, bind_ok, e, Bool.false_eq_true, if_true,
        if_false, dropInPlace_none true (show vs.countP bad = 0 by omega), pure_eq_ok]

theorem dropInPlace_abort {α : Type} {bad : α → Bool} {vs : List α} :
    ∀ u : Bool, 2 ≤ vs.countP bad + (if u then 1 else 0) →
    ∃ l, dropInPlace bad u (vs.map some) = .ok (l, .aborts) ∧ l <+: vs := by
  induction vs with
  | nil => intro u h; cases u <;> simp at h
  | cons v vs ih =>
    intro u h
    rw [List.countP_cons] at h
    cases e : bad v with
    | false =>
      rw [e] at h
      obtain ⟨l, e1, e2⟩ := ih u (by simpa using h)
      refine ⟨v :: l, ?_, by simpa using e2⟩
      simp only [List.map_cons, dropInPlace, unwrapU, bind_ok, e, Bool.false_eq_true, if_false, e1,
        pure_eq_ok]
    | true =>
      rw [e] at h
      cases u with
      | true =>
        refine ⟨[v], ?_, by simp⟩
        simp only [List.map_cons, dropInPlace, unwrapU, bind_ok, e, if_true, pure_eq_ok]
      | false =>
        simp only [if_true] at h
        obtain ⟨l, e1, e2⟩ := ih true (by simp at h ⊢; omega)
        refine ⟨v :: l, ?_, by simpa using e2⟩
        simp only [List.map_cons, dropInPlace, unwrapU, bind_ok, e, Bool.false_eq_true, if_true,
          if_false, e1, pure_eq_ok]

end Hibit
