import Verif.Props.Ops
import Verif.Props.Sparse
import Verif.Props.Materialize
/-!
# Property C52: the documented use cases (README, examples/)

End-to-end statements: containers filled by arbitrary histories, combined lazily, consumed through
`iter()`.
-/
namespace Hibit.Props
open Hibit

/-- What a consuming loop (`for`, `sum`, `collect`) sees of a sequence of `next` results: everything
before the first `None`. -/
def itemsOf {β : Type} (os : List (Option β)) : List β := (os.takeWhile Option.isSome).filterMap id

theorem itemsOf_range {β : Type} (L : List β) : ∀ n, L.length ≤ n →
    itemsOf ((List.range n).map fun k => L[k]?) = L := by
  intro n hn
  have h1 : (List.range n).map (fun k => L[k]?) = L.map some ++ List.replicate (n - L.length) none := by
    apply List.ext_getElem?
    intro k
    rw [List.getElem?_map, List.getElem?_append]
    by_cases h : k < L.length
    · simp [h, show k < n by omega]
    · simp only [List.length_map, h, if_false]
      by_cases h' : k < n
      · rw [List.getElem?_range h', List.getElem?_replicate, if_pos (by omega), Option.map_some,
          List.getElem?_eq_none (by omega)]
      · rw [List.getElem?_eq_none (by simpa using h'), List.getElem?_replicate, if_neg (by omega)]
        rfl
  rw [h1]
  unfold itemsOf
  rw [List.takeWhile_append_of_pos (by simp)]
  have h2 : (List.replicate (n - L.length) (none : Option β)).takeWhile Option.isSome = [] := by
    cases n - L.length <;> simp [List.replicate_succ]
  rw [h2, List.append_nil, List.filterMap_map]
  simp

theorem listing_length_le {β : Type} (n : Nat) (M : Nat → Option β) : (listing n M).length ≤ n := by
  unfold listing
  have := List.length_filterMap_le (fun i => (M i).map fun d => (i, d)) (List.range n)
  simpa using this

/-- A loop over `iter()` that runs to the end sees the content, in ascending order. -/
theorem collect_spec {S C δ : Type} {I : Impl S C δ} {s : S} {M : Nat → Option δ} (h : IsTree I s M) :
    ∃ F, ∀ fuel, F ≤ fuel → ∀ n, width I.N ^ I.D ≤ n → ∃ os, I.iterRun s fuel n = .ok os ∧
      itemsOf os = listing (width I.N ^ I.D) M := by
  obtain ⟨F, hF⟩ := contract_iter h
  refine ⟨F, fun fuel hf n hn => ⟨_, hF fuel hf n, itemsOf_range _ n ?_⟩⟩
  exact Nat.le_trans (listing_length_le _ _) hn

theorem sum_listing (M : Nat → Option Int) : ∀ n, ((listing n M).map (·.2)).sum =
    ((List.range n).map fun k => (M k).getD 0).sum := by
  intro n
  unfold listing
  rw [List.map_filterMap]
  induction n with
  | zero => rfl
  | succ n ih =>
    rw [List.range_succ, List.filterMap_append, List.sum_append, ih, List.map_append, List.sum_append]
    congr 1
    rw [List.filterMap_cons]
    cases hM : M n <;> simp [hM]

/-- **C52**, dot product, for any two trees of equal width and depth: summing the iteration of
`intersection(a, b).map(|(x, y)| x * y)` gives `Σ_k a[k]·b[k]`, absent entries counting as zero. -/
theorem contract_dot {S0 C0 S1 C1 : Type} {I0 : Impl S0 C0 Int} {I1 : Impl S1 C1 Int} {a : S0} {b : S1}
    {A B : Nat → Option Int} (hN : I0.N = I1.N) (hD : I0.D = I1.D) (ha : IsTree I0 a A)
    (hb : IsTree I1 b B) :
    ∃ F, ∀ fuel, F ≤ fuel → ∀ n, width I0.N ^ I0.D ≤ n → ∃ os,
      (mapImpl (interImpl I0 I1) fun e => e.1 * e.2).iterRun (a, b) fuel n = .ok os ∧
      ((itemsOf os).map (·.2)).sum =
        ((List.range (width I0.N ^ I0.D)).map fun k => (A k).getD 0 * (B k).getD 0).sum := by
  obtain ⟨F, hF⟩ := collect_spec (map_isTree (fun e : Int × Int => e.1 * e.2) (inter_isTree hN hD ha hb))
  refine ⟨F, fun fuel hf n hn => ?_⟩
  obtain ⟨os, e1, e2⟩ := hF fuel hf n hn
  refine ⟨os, e1, ?_⟩
  have e2' : itemsOf os = listing (width I0.N ^ I0.D)
    (fun i => (interMap A B i).map fun e => e.1 * e.2) := e2
  rw [e2', sum_listing]
  congr 1
  apply List.map_congr_left
  intro k _
  unfold interMap
  cases A k <;> cases B k <;> simp

/-- **C52**, dot product of two DenseTrees (README), whatever histories filled them. -/
theorem C52_dot_dense {D : Nat} {ops ops' : List (Dense.Op Int)} {t t' : Dense.DT Int}
    (h : DenseHistory D ops) (hr : DenseReached D ops t) (h' : DenseHistory D ops')
    (hr' : DenseReached D ops' t') :
    ∃ F, ∀ fuel, F ≤ fuel → ∀ n, 64 ^ D ≤ n → ∃ os,
      (mapImpl (interImpl (Dense.impl Int D) (Dense.impl Int D)) fun e => e.1 * e.2).iterRun (t, t')
        fuel n = .ok os ∧
      ((itemsOf os).map (·.2)).sum = ((List.range (64 ^ D)).map fun k =>
        ((Dense.specRun emptyMap ops).1 k).getD 0 * ((Dense.specRun emptyMap ops').1 k).getD 0).sum :=
  contract_dot rfl rfl (dense_isTree h hr).isTree (dense_isTree h' hr').isTree

/-- The README's vectors (`exV1`, `exV2` below): 1·1 + 100·7. -/
example : (do
    let t0 ← Dense.default Int 4
    let v1 ← Dense.run 4 t0 [.insert 10 1, .insert 20 10, .insert 30 100]
    let v2 ← Dense.run 4 t0 [.insert 10 1, .insert 30 7]
    (mapImpl (interImpl (Dense.impl Int 4) (Dense.impl Int 4)) fun e => e.1 * e.2).iterRun
      (v1.1, v2.1) 100 3 : R _) = .ok [some (10, 1), some (30, 700), none] := by decide +kernel

/-- **C52**, dot product of two SparseTrees (examples/sparse_vector.rs), any supported width and depth,
and of a DenseTree with a width-64 SparseTree. -/
theorem C52_dot_sparse {N D : Nat} {dflt dflt' : Option Int} {ops ops' : List (Sparse.Op Int)}
    {t t' : Sparse.ST Int} (h : SparseHistory N D dflt ops) (hr : SparseReached N D dflt ops t)
    (h' : SparseHistory N D dflt' ops') (hr' : SparseReached N D dflt' ops' t') :
    ∃ F, ∀ fuel, F ≤ fuel → ∀ n, width N ^ D ≤ n → ∃ os,
      (mapImpl (interImpl (Sparse.impl Int N D) (Sparse.impl Int N D)) fun e => e.1 * e.2).iterRun
        (t, t') fuel n = .ok os ∧
      ((itemsOf os).map (·.2)).sum = ((List.range (width N ^ D)).map fun k =>
        ((Sparse.specRun dflt emptyMap ops).1 k).getD 0 *
          ((Sparse.specRun dflt' emptyMap ops').1 k).getD 0).sum :=
  contract_dot rfl rfl (sparse_isTree h hr).isTree (sparse_isTree h' hr').isTree

example : (do
    let v1 ← Sparse.run 1 4 (Sparse.default Int 1 4 none) [.insert 10 1, .insert 20 10, .insert 30 100]
    let v2 ← Sparse.run 1 4 (Sparse.default Int 1 4 none) [.insert 10 1, .insert 30 7]
    (mapImpl (interImpl (Sparse.impl Int 1 4) (Sparse.impl Int 1 4)) fun e => e.1 * e.2).iterRun
      (v1.1, v2.1) 100 3 : R _) = .ok [some (10, 1), some (30, 700), none] := by decide +kernel

theorem C52_dot_mixed {D : Nat} {dflt' : Option Int} {ops : List (Dense.Op Int)}
    {ops' : List (Sparse.Op Int)} {t : Dense.DT Int} {t' : Sparse.ST Int} (h : DenseHistory D ops)
    (hr : DenseReached D ops t) (h' : SparseHistory 1 D dflt' ops')
    (hr' : SparseReached 1 D dflt' ops' t') :
    ∃ F, ∀ fuel, F ≤ fuel → ∀ n, 64 ^ D ≤ n → ∃ os,
      (mapImpl (interImpl (Dense.impl Int D) (Sparse.impl Int 1 D)) fun e => e.1 * e.2).iterRun
        (t, t') fuel n = .ok os ∧
      ((itemsOf os).map (·.2)).sum = ((List.range (64 ^ D)).map fun k =>
        ((Dense.specRun emptyMap ops).1 k).getD 0 *
          ((Sparse.specRun dflt' emptyMap ops').1 k).getD 0).sum :=
  contract_dot (I0 := Dense.impl Int D) (I1 := Sparse.impl Int 1 D) rfl rfl (dense_isTree h hr).isTree
    (sparse_isTree h' hr').isTree

example : (do
    let t0 ← Dense.default Int 4
    let v1 ← Dense.run 4 t0 [.insert 10 1, .insert 20 10, .insert 30 100]
    let v2 ← Sparse.run 1 4 (Sparse.default Int 1 4 none) [.insert 10 1, .insert 30 7]
    (mapImpl (interImpl (Dense.impl Int 4) (Sparse.impl Int 1 4)) fun e => e.1 * e.2).iterRun
      (v1.1, v2.1) 100 3 : R _) = .ok [some (10, 1), some (30, 700), none] := by decide +kernel

/-- **C52**, multi-type join (README): a loop over `intersection(&a, &b).map(f)`, with containers of
different value types, sees exactly `(k, f(a[k], b[k]))` for the common keys, ascending. -/
theorem C52_join {α β γ : Type} {D : Nat} {ops : List (Dense.Op α)} {ops' : List (Dense.Op β)}
    {t : Dense.DT α} {t' : Dense.DT β} (f : α × β → γ)
    (h : DenseHistory D ops) (hr : DenseReached D ops t) (h' : DenseHistory D ops')
    (hr' : DenseReached D ops' t') :
    ∃ F, ∀ fuel, F ≤ fuel → ∀ n, 64 ^ D ≤ n → ∃ os,
      (mapImpl (interImpl (Dense.impl α D) (Dense.impl β D)) f).iterRun (t, t') fuel n = .ok os ∧
      (itemsOf os).Pairwise (fun x y => x.1 < y.1) ∧
      ∀ k c, (k, c) ∈ itemsOf os ↔ k < 64 ^ D ∧ ∃ x y, (Dense.specRun emptyMap ops).1 k = some x ∧
        (Dense.specRun emptyMap ops').1 k = some y ∧ c = f (x, y) := by
  obtain ⟨F, hF⟩ := collect_spec (map_isTree f (inter_isTree (I0 := Dense.impl α D)
    (I1 := Dense.impl β D) rfl rfl (dense_isTree h hr).isTree (dense_isTree h' hr').isTree))
  refine ⟨F, fun fuel hf n hn => ?_⟩
  obtain ⟨os, e1, e2⟩ := hF fuel hf n hn
  have e2' : itemsOf os = listing (64 ^ D) (fun i => (interMap (Dense.specRun emptyMap ops).1
    (Dense.specRun emptyMap ops').1 i).map f) := e2
  refine ⟨os, e1, ?_, fun k c => ?_⟩
  · rw [e2']; exact List.pairwise_map.1 (listing_spec _ _).1
  · rw [e2', (listing_spec _ _).2]
    refine and_congr_right fun _ => ?_
    unfold interMap
    cases (Dense.specRun emptyMap ops).1 k <;> cases (Dense.specRun emptyMap ops').1 k <;> simp
    exact eq_comm

/-- Values of two types. -/
example : (do
    let a0 ← Dense.default Nat 2
    let a ← Dense.run 2 a0 [.insert 1 10, .insert 70 20]
    let b0 ← Dense.default String 2
    let b ← Dense.run 2 b0 [.insert 70 "x", .insert 71 "y"]
    (mapImpl (interImpl (Dense.impl Nat 2) (Dense.impl String 2)) fun e => (e.2, e.1 + 1)).iterRun
      (a.1, b.1) 9 2 : R _) = .ok [some (70, ("x", 21)), none] := by decide +kernel

/-- What `get` says about a DenseTree. -/
def denseGetMap {α : Type} (D : Nat) (t : Dense.DT α) (k : Nat) : Option α :=
  match (Dense.impl α D).get t k with
  | .ok o => o
  | .error _ => none

theorem denseGetMap_eq {α : Type} {D : Nat} {ops : List (Dense.Op α)} {t : Dense.DT α}
    (h : DenseHistory D ops) (hr : DenseReached D ops t) {k : Nat} (hk : k < 64 ^ D) :
    denseGetMap D t k = (Dense.specRun emptyMap ops).1 k := by
  unfold denseGetMap
  rw [Dense.get_spec (h.rep hr) h.depth_pos h.depth_le hk]

/-- **C52**, stock search (README): a loop over `multi_intersection` of 1 to 32 DenseTrees filled by
arbitrary histories sees, ascending, exactly the keys present in all of them, each with the values in
the order of the trees. -/
theorem C52_store {α : Type} {D : Nat} (trees : List (List (Dense.Op α) × Dense.DT α))
    (hne : trees ≠ []) (hcap : trees.length ≤ 32)
    (h : ∀ e ∈ trees, DenseHistory D e.1 ∧ DenseReached D e.1 e.2) :
    ∃ F, ∀ fuel, F ≤ fuel → ∀ n, 64 ^ D ≤ n → ∃ os,
      (multiInterImpl (Dense.impl α D)).iterRun (trees.map (·.2)) fuel n = .ok os ∧
      (itemsOf os).Pairwise (fun x y => x.1 < y.1) ∧
      ∀ k vs, (k, vs) ∈ itemsOf os ↔ k < 64 ^ D ∧
        vs.map some = trees.map fun e => (Dense.specRun emptyMap e.1).1 k := by
  have hT := multiInter_isTree (I := Dense.impl α D) (ss := trees.map (·.2))
    (content := denseGetMap D) (by simpa using hne) (by simpa using hcap) (by
      intro s hs
      obtain ⟨e, he, rfl⟩ := List.mem_map.1 hs
      obtain ⟨T, K, L, g⟩ := (dense_isTree (h e he).1 (h e he).2).isTree
      exact ⟨T, K, L, fun i hi => by rw [g i hi, denseGetMap_eq (h e he).1 (h e he).2 hi]⟩)
  obtain ⟨F, hF⟩ := collect_spec hT.isTree
  refine ⟨F, fun fuel hf n hn => ?_⟩
  obtain ⟨os, e1, e2⟩ := hF fuel hf n hn
  have e2' : itemsOf os = listing (64 ^ D) (multiInterMap ((trees.map (·.2)).map (denseGetMap D))) := e2
  refine ⟨os, e1, ?_, fun k vs => ?_⟩
  · rw [e2']; exact List.pairwise_map.1 (listing_spec _ _).1
  · rw [e2', (listing_spec _ _).2]
    refine and_congr_right fun hk => ?_
    unfold multiInterMap
    simp only [List.all_map, List.filterMap_map, Function.comp_def, List.map_map]
    have key : ∀ l : List (List (Dense.Op α) × Dense.DT α), (∀ e ∈ l, e ∈ trees) → ∀ vs : List α,
        ((if (l.all fun x => (denseGetMap D x.2 k).isSome) = true then
          some (l.filterMap fun x => denseGetMap D x.2 k) else none) = some vs ↔
        vs.map some = l.map fun e => (Dense.specRun emptyMap e.1).1 k) := by
      intro l
      induction l with
      | nil =>
        intro _ vs
        cases vs <;> simp
      | cons e l ih =>
        intro hl vs
        have he := denseGetMap_eq (h e (hl e (by simp))).1 (h e (hl e (by simp))).2 hk
        have ih := ih (fun x hx => hl x (by simp [hx]))
        simp only [List.all_cons, List.filterMap_cons, List.map_cons, he]
        cases hm : (Dense.specRun emptyMap e.1).1 k with
        | none => cases vs <;> simp
        | some v =>
          simp only [Option.isSome_some, Bool.true_and]
          cases vs with
          | nil => simp
          | cons w ws =>
            rw [List.map_cons, List.cons.injEq, ← ih ws]
            by_cases hc : (l.all fun x => (denseGetMap D x.2 k).isSome) = true
            · simp only [if_pos hc, Option.some.injEq, List.cons.injEq]
              constructor <;> rintro ⟨rfl, h⟩ <;> exact ⟨rfl, h⟩
            · simp [if_neg hc]
    exact key trees (fun _ h => h) vs

example : (do
    let t0 ← Dense.default Nat 2
    let a ← Dense.run 2 t0 [.insert 1 10, .insert 70 20, .insert 80 30]
    let b ← Dense.run 2 t0 [.insert 70 1, .insert 71 2, .insert 80 3]
    let c ← Dense.run 2 t0 [.insert 70 5, .insert 1 2]
    (multiInterImpl (Dense.impl Nat 2)).iterRun [a.1, b.1, c.1] 9 2 : R _) =
    .ok [some (70, [20, 1, 5]), none] := by decide +kernel

/-- **C52**, conversion: a SparseTree (width 64) turned into a DenseTree has the same content and is
fully usable, whatever history filled it. -/
theorem C52_convert {α : Type} {D : Nat} {dflt : Option α} {ops : List (Sparse.Op α)} {t : Sparse.ST α}
    (h : SparseHistory 1 D dflt ops) (hr : SparseReached 1 D dflt ops t) (h9 : D ≤ 9)
    (hroom : card (64 ^ D) (Sparse.specRun dflt emptyMap ops).1 < 2 ^ 32) :
    ∃ u, Dense.materialize (Sparse.impl α 1 D) t = .ok u ∧
      (∀ k, (Dense.impl α D).get u k = (Sparse.impl α 1 D).get t k) ∧
      (∃ F, ∀ fuel, F ≤ fuel → ∀ n,
        (Dense.impl α D).iterRun u fuel n = (Sparse.impl α 1 D).iterRun t fuel n) ∧
      UsableDense D u (restrict (64 ^ D) (Sparse.specRun dflt emptyMap ops).1) := by
  obtain ⟨u, e1, e2, e3, -, e5⟩ := contract_materialize_exact (I := Sparse.impl α 1 D)
    (sparse_isTree h hr).isTree rfl rfl h9 hroom
  exact ⟨u, e1, e2, e3, e5⟩

example : (do
    let a ← Sparse.run 1 2 (Sparse.default Nat 1 2 none) [.insert 1 10, .insert 70 20, .remove 1]
    let u ← Dense.materialize (Sparse.impl Nat 1 2) a.1
    let w ← Dense.run 2 u [.insert 3 4]
    (Dense.impl Nat 2).iterRun w.1 9 3 : R _) = .ok [some (3, 4), some (70, 20), none] := by
  decide +kernel

/-- **C52**, merge: materializing `union(&dense, &sparse).map(f)` gives a usable DenseTree holding
`f` of the optional values at exactly the keys of either. -/
theorem C52_merge {α β γ : Type} {D : Nat} {dflt : Option β} {ops : List (Dense.Op α)}
    {ops' : List (Sparse.Op β)} {t : Dense.DT α} {t' : Sparse.ST β} (f : Option α × Option β → γ)
    (h : DenseHistory D ops) (hr : DenseReached D ops t)
    (h' : SparseHistory 1 D dflt ops') (hr' : SparseReached 1 D dflt ops' t')
    (hroom : card (64 ^ D) (unionMap (Dense.specRun emptyMap ops).1
      (Sparse.specRun dflt emptyMap ops').1) < 2 ^ 32) :
    ∃ u, Dense.materialize (mapImpl (unionImpl (Dense.impl α D) (Sparse.impl β 1 D)) f) (t, t') = .ok u ∧
      (∀ k, k < 64 ^ D → k < 2 ^ 64 - 1 → (Dense.impl γ D).get u k =
        .ok ((unionMap (Dense.specRun emptyMap ops).1 (Sparse.specRun dflt emptyMap ops').1 k).map f)) ∧
      UsableDense D u (restrict (64 ^ D) fun k =>
        (unionMap (Dense.specRun emptyMap ops).1 (Sparse.specRun dflt emptyMap ops').1 k).map f) := by
  have hT := map_isTree f (union_isTree (I0 := Dense.impl α D) (I1 := Sparse.impl β 1 D) rfl rfl
    (dense_isTree h hr) (sparse_isTree h' hr')).isTree
  have hc : card (64 ^ D) (fun k => (unionMap (Dense.specRun emptyMap ops).1
      (Sparse.specRun dflt emptyMap ops').1 k).map f) = card (64 ^ D) (unionMap
      (Dense.specRun emptyMap ops).1 (Sparse.specRun dflt emptyMap ops').1) := by
    unfold card keysOf
    simp
  obtain ⟨u, e1, e2, e3, -, e5⟩ := contract_materialize_exact hT rfl rfl h.depth_le
    (by rw [← hc] at hroom; exact hroom)
  refine ⟨u, e1, fun k hk hk' => ?_, e5⟩
  exact (e2 k).trans ((getIter hT).1 k hk hk')

example : (do
    let t0 ← Dense.default Nat 2
    let a ← Dense.run 2 t0 [.insert 1 10, .insert 70 20]
    let b ← Sparse.run 1 2 (Sparse.default Nat 1 2 none) [.insert 70 1, .insert 71 2]
    let u ← Dense.materialize (mapImpl (unionImpl (Dense.impl Nat 2) (Sparse.impl Nat 1 2))
      fun e => e.1.getD 0 + e.2.getD 0) (a.1, b.1)
    (Dense.impl Nat 2).iterRun u 9 4 : R _) =
    .ok [some (1, 10), some (70, 21), some (71, 2), none] := by decide +kernel

/-- The README vectors meet the hypotheses. -/
def exV1 : List (Dense.Op Int) := [.insert 10 1, .insert 20 10, .insert 30 100]
def exV2 : List (Dense.Op Int) := [.insert 10 1, .insert 30 7]

theorem exV1_history : DenseHistory 4 exV1 := by
  refine .of_depth (by decide) (by decide) ?_
  intro op h
  simp only [exV1, List.mem_cons, List.not_mem_nil, or_false] at h
  rcases h with rfl | rfl | rfl <;> simp [Dense.Op.InRange]

theorem exV2_history : DenseHistory 4 exV2 := by
  refine .of_depth (by decide) (by decide) ?_
  intro op h
  simp only [exV2, List.mem_cons, List.not_mem_nil, or_false] at h
  rcases h with rfl | rfl <;> simp [Dense.Op.InRange]

example : ∃ t t', DenseReached 4 exV1 t ∧ DenseReached 4 exV2 t' ∧
    ∃ os, (mapImpl (interImpl (Dense.impl Int 4) (Dense.impl Int 4)) fun e => e.1 * e.2).iterRun
      (t, t') 100 4 = .ok os ∧ itemsOf os = [(10, 1), (30, 700)] := by
  refine ⟨_, _, ⟨_, _, rfl, rfl⟩, ⟨_, _, rfl, rfl⟩, _, rfl, rfl⟩

end Hibit.Props
