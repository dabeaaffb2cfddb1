import Verif.Unwind
import Verif.Props.Sparse
import Verif.Props.Order
/-!
# Property C55: destructors that panic

`bad v` says that the destructor of `v` panics (`Verif/Unwind.lean`); `valuesOf n M` lists the stored
values.
-/
namespace Hibit.Props
open Hibit

variable {α : Type}

section
open Hibit.Dense

theorem denseReached_snoc {D : Nat} {ops : List (Op α)} {t : DT α} (hr : DenseReached D ops t)
    {op : Op α} {t' : DT α} {o : Option α × List α} (e : step D t op = .ok (t', o)) :
    DenseReached D (ops ++ [op]) t' := by
  obtain ⟨t0, outs, h0, h⟩ := hr
  refine ⟨t0, outs ++ [o], h0, ?_⟩
  clear h0
  revert h
  induction ops generalizing t0 outs with
  | nil =>
    intro h
    simp only [run, Except.ok.injEq, Prod.mk.injEq] at h
    obtain ⟨rfl, rfl⟩ := h
    simp only [List.nil_append, run, e, bind_ok, pure_eq_ok]
  | cons a ops ih =>
    intro h
    simp only [run] at h
    obtain ⟨⟨t1, o1⟩, h1, h⟩ := bind_inv h
    obtain ⟨⟨t2, os⟩, h2, h⟩ := bind_inv h
    simp only [pure_eq_ok, Except.ok.injEq, Prod.mk.injEq] at h
    obtain ⟨rfl, rfl⟩ := h
    simp only [List.cons_append, run, h1, bind_ok, ih t1 os h2, pure_eq_ok]

/-- **C55**, the part that holds for DenseTree: whatever the destructors do, after an `insert` (with
room for one more element) that overwrote a value with a panicking destructor and unwound, the tree is
the one an undisturbed `insert` leaves, the old value has been destroyed once and nothing else; and dropping a tree none
of whose stored values has a panicking destructor, or two of them have, is safe: it destroys each
stored value once, resp. aborts the process without destroying any value twice. Missing: exactly one
such value (`C55_fails_dense`). -/
theorem C55_dense_partial {D : Nat} {ops : List (Op α)} (h : DenseHistory D ops) {t : DT α}
    (hr : DenseReached D ops t) (bad : α → Bool) :
    let M := (specRun emptyMap ops).1
    (∀ k v, k < 64 ^ D → card (64 ^ D) M + 1 < 2 ^ 32 →
      ∃ t', insertWith bad D t k v = .ok (t', (M k).toList,
          if (M k).toList.any bad then Fate.unwinds else Fate.returns) ∧
        DenseReached D (ops ++ [.insert k v]) t' ∧
        ∀ j, j < 64 ^ D → (impl α D).get t' j = .ok (if j = k then some v else M j)) ∧
    ((valuesOf (64 ^ D) M).countP bad = 0 →
      ∃ vs heap', Dense.dropWith bad D t = .ok (vs, .returns, heap') ∧
        List.Perm vs (valuesOf (64 ^ D) M) ∧ ∀ a, heap'.node a = none) ∧
    (2 ≤ (valuesOf (64 ^ D) M).countP bad →
      ∃ vs rest heap', Dense.dropWith bad D t = .ok (vs, .aborts, heap') ∧
        List.Perm (vs ++ rest) (valuesOf (64 ^ D) M)) := by
  intro M
  have R : DRep AllNodes D t M := h.rep hr
  refine ⟨fun k v hk hroom => ?_, fun h0 => ?_, fun h2 => ?_⟩
  · have hlen := R.card_eq
    obtain ⟨out, e1, e2, -, e4, -⟩ :=
      getOrInsertImpl_spec R h.depth_pos h.depth_le hk true v (fun _ => by omega)
    have e4 : out.dropped = (M k).toList := by simpa using e4
    have e : Dense.insert D t k v = .ok out := by
      unfold Dense.insert
      rw [indexFrom_ok h.depth_le, if_pos hk]
      exact e1
    refine ⟨out.tree, ?_, denseReached_snoc hr (o := (none, out.dropped)) ?_, fun j hj => ?_⟩
    · simp only [insertWith, e, bind_ok, pure_eq_ok, e4]
    · simp only [step, e, bind_ok, pure_eq_ok]
    · rw [get_spec e2 h.depth_pos h.depth_le hj]; simp [upd]
  all_goals
    obtain ⟨loc, K, S⟩ := R
    obtain ⟨vs, g1, g2, g3, g4⟩ := S.enumerate
    obtain ⟨-, p2⟩ := values_perm (by simp [g2]) g3 g4
  · obtain ⟨h', e1, e2⟩ := S.dropNodes h.depth_pos
    refine ⟨vs, h', ?_, p2, e2⟩
    unfold Dense.dropWith
    rw [if_pos (by rw [g1]; simp), g1]
    simp only [List.drop_succ_cons, List.drop_zero,
      dropInPlace_none false (by rw [p2.countP_eq]; exact h0), bind_ok, Bool.false_eq_true, if_false,
      e1, pure_eq_ok]
  · obtain ⟨l, e, hp⟩ := dropInPlace_abort (bad := bad) (vs := vs) false
      (by rw [p2.countP_eq]; simpa using h2)
    obtain ⟨rest, rfl⟩ := hp
    refine ⟨l, rest, t.heap, ?_, p2⟩
    unfold Dense.dropWith
    rw [if_pos (by rw [g1]; simp), g1]
    simp only [List.drop_succ_cons, List.drop_zero, e, bind_ok, pure_eq_ok]

/-- On `exD`: overwriting 72 (with a panicking destructor) at key 64 unwinds and has stored 1. -/
example : DenseReached 2 exOps exD ∧ (do
    let r ← insertWith (· == 72) 2 exD 64 1
    return (r.2, ← (impl Nat 2).get r.1 64, ← (impl Nat 2).get r.1 5) : R _) =
    .ok (([72], Fate.unwinds), some 1, some 56) ∧
    (Dense.dropWith (fun _ => false) 2 exD).map (fun r => (r.1, r.2.1)) =
      .ok ([56, 72, 202], Fate.returns) := ⟨exD_reached, by decide +kernel, by decide +kernel⟩

/-- **C55** is false for DenseTree: after any supported history, if exactly one stored value has a
panicking destructor, dropping the tree is undefined behaviour (the unwinding drops `data` again, with
its uninitialised first element). -/
theorem C55_fails_dense {D : Nat} {ops : List (Op α)} (h : DenseHistory D ops) {t : DT α}
    (hr : DenseReached D ops t) (bad : α → Bool)
    (h1 : (valuesOf (64 ^ D) (specRun emptyMap ops).1).countP bad = 1) :
    Dense.dropWith bad D t = .error .ub := by
  obtain ⟨loc, K, S⟩ := h.rep hr
  obtain ⟨vs, g1, g2, g3, g4⟩ := S.enumerate
  obtain ⟨-, p2⟩ := values_perm (by simp [g2]) g3 g4
  unfold Dense.dropWith
  rw [if_pos (by rw [g1]; simp), g1]
  simp only [List.drop_succ_cons, List.drop_zero,
    dropInPlace_one (show vs.countP bad = 1 by rw [p2.countP_eq]; exact h1), bind_ok]
  rfl

/-- The hypotheses are met. -/
example : (valuesOf (64 ^ 2) (specRun emptyMap [Op.insert 5 50, .insert 70 1]).1).countP (· == 50) = 1 := by
  decide +kernel

end

section
open Hibit.Sparse

variable {N D : Nat} {dflt : Option α} {ops : List (Op α)} {t : ST α}

theorem sparseReached_snoc (hr : SparseReached N D dflt ops t)
    {op : Op α} {t' : ST α} {o : Option α × List α} (e : step N D t op = .ok (t', o)) :
    SparseReached N D dflt (ops ++ [op]) t' := by
  obtain ⟨outs, h⟩ := hr
  refine ⟨outs ++ [o], ?_⟩
  revert h
  generalize Sparse.default α N D dflt = t0
  induction ops generalizing t0 outs with
  | nil =>
    intro h
    simp only [run, Except.ok.injEq, Prod.mk.injEq] at h
    obtain ⟨rfl, rfl⟩ := h
    simp only [List.nil_append, run, e, bind_ok, pure_eq_ok]
  | cons a ops ih =>
    intro h
    simp only [run] at h
    obtain ⟨⟨t1, o1⟩, h1, h⟩ := bind_inv h
    obtain ⟨⟨t2, os⟩, h2, h⟩ := bind_inv h
    simp only [pure_eq_ok, Except.ok.injEq, Prod.mk.injEq] at h
    obtain ⟨rfl, rfl⟩ := h
    simp only [List.cons_append, run, h1, bind_ok, ih os t1 h2, pure_eq_ok]

/-- The slots `drop_impl` destroys. -/
theorem slots_spec (h : SparseHistory N D dflt ops) (hr : SparseReached N D dflt ops t) :
    ∃ vs : List α, List.Perm vs (valuesOf (width N ^ D) (specRun dflt emptyMap ops).1) ∧
      (if dflt.isSome then 0 else 1) ≤ t.values.length ∧
      t.values.drop (if dflt.isSome then 0 else 1) = (dflt.toList ++ vs).map some := by
  obtain ⟨B, S⟩ := h.rep hr
  obtain ⟨vs, g1, g2, g3, g4⟩ := S.enumerate
  obtain ⟨-, p2⟩ := values_perm (by simp [g2]) g3 g4
  refine ⟨vs, p2, ?_, ?_⟩
  · rw [g1]; cases dflt <;> simp
  · rw [g1]; cases dflt <;> simp

/-- **C55**, the part that holds for SparseTree; `dflt.toList` is the tree's default value, if it has
one. -/
theorem C55_sparse_partial (h : SparseHistory N D dflt ops) (hr : SparseReached N D dflt ops t)
    (bad : α → Bool) :
    let M := (specRun dflt emptyMap ops).1
    (∀ k v, k < keyRange N D → Fits (width N) D idxCap (put M k (some v)) →
      ∃ t', insertWith bad N D t k v = .ok (t', (M k).toList,
          if (M k).toList.any bad then Fate.unwinds else Fate.returns) ∧
        SparseReached N D dflt (ops ++ [.insert k v]) t' ∧
        ∀ j, j < keyRange N D → (impl α N D).get t' j = .ok (if j = k then some v else M j)) ∧
    ((dflt.toList ++ valuesOf (width N ^ D) M).countP bad = 0 →
      ∃ vs, Sparse.dropWith bad dflt.isSome t = .ok (dflt.toList ++ vs, .returns) ∧
        List.Perm vs (valuesOf (width N ^ D) M)) ∧
    (2 ≤ (dflt.toList ++ valuesOf (width N ^ D) M).countP bad →
      ∃ vs rest, Sparse.dropWith bad dflt.isSome t = .ok (vs, .aborts) ∧
        List.Perm (vs ++ rest) (dflt.toList ++ valuesOf (width N ^ D) M)) := by
  obtain ⟨B, S⟩ := h.rep hr
  intro M
  refine ⟨fun k v hk hroom => ?_, fun h0 => ?_, fun h2 => ?_⟩
  · obtain ⟨out, B', e1, S', -, -, -, e2, -⟩ :=
      S.getOrInsert_fits h.cfg (idxCap_ok D) (keyRange_lt hk) true v (fits_occ_nil hroom)
    have e2 : out.dropped = (M k).toList := by simpa using e2
    have e : Sparse.insert N D t k v = .ok out := by
      unfold Sparse.insert; rw [indexFrom_eq, if_pos hk]; exact e1
    refine ⟨out.tree, ?_, sparseReached_snoc hr (o := (none, out.dropped)) ?_, fun j hj => ?_⟩
    · simp only [Sparse.insertWith, e, bind_ok, pure_eq_ok, e2]
    · simp only [step, e, bind_ok, pure_eq_ok]
    · rw [get_spec h.cfg ⟨B', S'⟩ hj]; rfl
  all_goals
    obtain ⟨vs, p2, hd⟩ := slots_spec h hr
    have hp : List.Perm (dflt.toList ++ vs) (dflt.toList ++ valuesOf (width N ^ D) M) :=
      p2.append_left _
  · refine ⟨vs, ?_, p2⟩
    obtain ⟨hl, hs⟩ := hd
    unfold Sparse.dropWith
    simp only [hs, if_pos hl, dropInPlace_none false (by rw [hp.countP_eq]; exact h0), bind_ok,
      Bool.false_eq_true, if_false, pure_eq_ok]
  · obtain ⟨l, e, ⟨rest, hx⟩⟩ := dropInPlace_abort (bad := bad) (vs := dflt.toList ++ vs) false
      (by rw [hp.countP_eq]; simpa using h2)
    refine ⟨l, rest, ?_, by rw [hx]; exact hp⟩
    obtain ⟨hl, hs⟩ := hd
    unfold Sparse.dropWith
    simp only [hs, if_pos hl, e, bind_ok, pure_eq_ok]

example : SparseReached 2 2 (some 9) exOpsS exS ∧ (do
    let r ← Sparse.insertWith (· == 136) 2 2 exS 128 1
    return (r.2, ← (impl Nat 2 2).get r.1 128, ← (impl Nat 2 2).get r.1 5) : R _) =
    .ok (([136], Fate.unwinds), some 1, some 56) ∧
    Sparse.dropWith (fun _ => false) true exS = .ok ([9, 56, 136, 404], Fate.returns) :=
  ⟨exS_reached, by decide +kernel, by decide +kernel⟩

/-- **C55** is false for SparseTree: after any supported history, if exactly one of the stored values
and the default value has a panicking destructor, dropping the tree is undefined behaviour. -/
theorem C55_fails_sparse (h : SparseHistory N D dflt ops) (hr : SparseReached N D dflt ops t)
    (bad : α → Bool)
    (h1 : (dflt.toList ++ valuesOf (width N ^ D) (specRun dflt emptyMap ops).1).countP bad = 1) :
    Sparse.dropWith bad dflt.isSome t = .error .ub := by
  obtain ⟨vs, p2, hl, hs⟩ := slots_spec h hr
  obtain ⟨B, S⟩ := h.rep hr
  obtain ⟨vs', g1, -⟩ := S.enumerate
  have hp := p2.append_left dflt.toList
  unfold Sparse.dropWith
  simp only [hs, if_pos hl, dropInPlace_one (bad := bad) (vs := dflt.toList ++ vs)
    (by rw [hp.countP_eq]; exact h1), bind_ok]
  cases dflt with
  | none => rw [g1]; rfl
  | some d => rw [g1]; rfl

/-- The hypotheses are met, with the default value the one whose destructor panics. -/
example : ((some 7).toList ++ valuesOf (64 ^ 1) (specRun (some 7) emptyMap
    [Op.insert 5 50, .insert 60 1]).1).countP (· == 7) = 1 := by
  decide +kernel

end
end Hibit.Props
