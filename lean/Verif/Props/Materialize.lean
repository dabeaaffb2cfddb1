import Verif.Props.Ops
import Verif.Dense.InPlace
/-!
# Properties C42, C43 (and C40 for materialized trees): `materialize` into a DenseTree

`materialize I s` models `s.materialize::<DenseTree<_, D>>()` (`Verif/Dense/Materialize.lean`) for any
tree type `I` with 64-bit masks.
-/
namespace Hibit.Props
open Hibit Hibit.Dense

section
variable {S C α : Type} {I : Impl S C α} {s : S} {M : Nat → Option α}

/-- The map `M` with the keys `≥ n` (outside of the index range) absent. -/
def restrict (n : Nat) (M : Nat → Option α) : Nat → Option α := fun k => if k < n then M k else none

/-- A further history on a tree holding the map `M` that the type supports (compare `DenseHistory`):
in-range keys, fewer than 2^32 elements at any time, and `remove` only for depth ≥ 2. -/
structure LaterHistory (D : Nat) (M : Nat → Option α) (ops : List (Op α)) : Prop where
  inRange : ∀ op ∈ ops, op.InRange (64 ^ D)
  bounded : Bounded (64 ^ D) (2 ^ 32) M ops
  removeDepth : ∀ k, Op.remove k ∈ ops → 2 ≤ D

/-- The DenseTree `t` of depth `D` is a fully usable tree holding the map `M`: it obeys the trait
contract (so C27–C41 apply), every further supported history returns what it returns on the map and
leaves a tree whose `get` and iteration are the map's, `key_values()` lists the content, and dropping
it then frees everything and drops exactly the stored values. -/
def UsableDense (D : Nat) (t : DT α) (M : Nat → Option α) : Prop :=
  ∀ ops, LaterHistory D M ops → ∃ t', run D t ops = .ok (t', (specRun M ops).2) ∧
    IsTreeC (impl α D) t' (specRun M ops).1 ∧ GetIterIs (impl α D) t' (specRun M ops).1 ∧
    (∃ (ks : List Nat) (vs : List α), keyValues t' = .ok (ks, vs.map some) ∧
      ks.length = vs.length ∧ ks.Nodup ∧
      ∀ k v, (∃ j : Nat, ks[j]? = some k ∧ vs[j]? = some v) ↔
        k < 64 ^ D ∧ (specRun M ops).1 k = some v) ∧
    ∃ vs heap', dropImpl D t' = .ok (vs, heap') ∧
      List.Perm vs (valuesOf (64 ^ D) (specRun M ops).1) ∧ ∀ a, heap'.node a = none

theorem isTreeC_of_rep {D : Nat} {t : DT α} (h1 : 1 ≤ D) (h9 : D ≤ 9) (R : DRep AllNodes D t M) :
    IsTreeC (impl α D) t M := by
  obtain ⟨T, K, L, hT⟩ := R.lawful h1 h9
  refine ⟨T, K, L, fun i hi => ?_⟩
  show T.content (path 64 D i) = _
  rw [hT, unpath_path 64 D i hi]

theorem usable_of_rep {D : Nat} {t : DT α} (h1 : 1 ≤ D) (h9 : D ≤ 9) (R : DRep AllNodes D t M) :
    UsableDense D t M := by
  intro ops h
  obtain ⟨t', e, R'⟩ := run_spec h9 ops t M R (fun op hop => by
    cases op with
    | remove k => exact h.removeDepth k hop
    | _ => exact h1) h.inRange h.bounded
  have ht := isTreeC_of_rep h1 h9 R'
  exact ⟨t', e, ht, getIter ht.isTree, keyValues_spec R', dropImpl_spec R' h1⟩

theorem filterMap_range_congr {β : Type} {n : Nat} {f g : Nat → Option β}
    (h : ∀ k, k < n → f k = g k) : (List.range n).filterMap f = (List.range n).filterMap g := by
  have : ∀ l : List Nat, (∀ x ∈ l, f x = g x) → l.filterMap f = l.filterMap g := by
    intro l
    induction l with
    | nil => intro _; rfl
    | cons a l ih =>
      intro h
      simp only [List.filterMap_cons, h a (by simp), ih (fun x hx => h x (by simp [hx]))]
  exact this _ (fun x hx => h x (List.mem_range.1 hx))

theorem card_restrict (n : Nat) (M : Nat → Option α) : card n (restrict n M) = card n M := by
  unfold card keysOf
  congr 1
  apply List.filter_congr
  intro k hk
  rw [List.mem_range] at hk
  simp [restrict, hk]

theorem keysOf_restrict (n : Nat) (M : Nat → Option α) : keysOf n (restrict n M) = keysOf n M := by
  unfold keysOf
  apply List.filter_congr
  intro k hk
  rw [List.mem_range] at hk
  simp [restrict, hk]

theorem valuesOf_restrict (n : Nat) (M : Nat → Option α) :
    valuesOf n (restrict n M) = valuesOf n M := by
  unfold valuesOf
  apply filterMap_range_congr
  intro k hk
  simp [restrict, hk]

/-- **C42**: materializing any tree that obeys the contract, has exact hierarchy, 64-bit masks, depth
at most 9 and fewer than 2^32 elements succeeds and gives a DenseTree whose `get` agrees with the
source's for *every* index (in range or not), whose iteration is the source's, whose `key_values()`
are the content in ascending key order, and which is fully usable: it behaves as the source's map
under every further history and can be dropped. -/
theorem contract_materialize_exact (h : IsTree I s M) (hN : I.N = 1) (hex : I.exact = true)
    (h9 : I.D ≤ 9) (hroom : card (64 ^ I.D) M < 2 ^ 32) :
    ∃ t, materialize I s = .ok t ∧
      (∀ k, (impl α I.D).get t k = I.get s k) ∧
      (∃ F, ∀ fuel, F ≤ fuel → ∀ n, (impl α I.D).iterRun t fuel n = I.iterRun s fuel n) ∧
      keyValues t = .ok (keysOf (64 ^ I.D) M, (valuesOf (64 ^ I.D) M).map some) ∧
      UsableDense I.D t (restrict (64 ^ I.D) M) := by
  have h' := h
  obtain ⟨T, K, L, hc⟩ := h'
  have h1 := L.cfg.depth
  have hW : width I.N = 64 := by rw [hN]; rfl
  have X : Src I s T K (restrict (64 ^ I.D) M) := by
    refine ⟨L, hN, h9, fun i hi => ?_, by rw [card_restrict]; exact hroom⟩
    have := hc i (by rw [hW]; exact hi)
    rw [hW] at this
    rw [this, restrict, if_pos hi]
  obtain ⟨t, e, R, hk, hd⟩ := materialize_exact X hex (fun k hk => by
    rw [restrict, if_neg (by omega)])
  have ht := isTreeC_of_rep h1 h9 R
  refine ⟨t, e, fun k => ?_, ?_, ?_, usable_of_rep h1 h9 R⟩
  · rw [tree_get ht.isTree, tree_get h, hN]
    show (if k < min (64 ^ I.D) _ then _ else _) = if k < min (64 ^ I.D) _ then _ else _
    by_cases hk : k < min (64 ^ I.D) (2 ^ 64 - 1)
    · rw [if_pos hk, if_pos hk, restrict, if_pos (by omega)]
    · rw [if_neg hk, if_neg hk]
  · obtain ⟨F1, f1⟩ := contract_iter ht.isTree
    obtain ⟨F2, f2⟩ := contract_iter h
    refine ⟨max F1 F2, fun fuel hf n => ?_⟩
    rw [f1 fuel (by omega) n, f2 fuel (by omega) n, hN]
    have : listing (64 ^ I.D) (restrict (64 ^ I.D) M) = listing (64 ^ I.D) M := by
      unfold listing
      apply filterMap_range_congr
      intro k hk
      simp [restrict, hk]
    show Except.ok ((List.range n).map fun k =>
      (listing (64 ^ I.D) (restrict (64 ^ I.D) M))[k]?) = _
    rw [this]; rfl
  · unfold keyValues
    rw [keysOf_restrict] at hk
    rw [valuesOf_restrict] at hd
    rw [if_pos ⟨by simp [hk], by simp [hd]⟩, hk, hd]
    simp

end

/-- The hypotheses of C42 are met: the union of a DenseTree with a mapped copy of itself, with later
removal and insertion. -/
example : ∃ (t : DT Nat) (u u' : DT (Option Nat × Option Nat)),
    materialize (unionImpl (impl Nat 2) (mapImpl (impl Nat 2) (· + 1))) (t, t) = .ok u ∧
    (impl _ 2).get u 5 = .ok (some (some 56, some 57)) ∧ (impl _ 2).get u 4095 = .ok none ∧
    run 2 u [.remove 5, .insert 4095 (some 1, none)] =
      .ok (u', [(some (some 56, some 57), []), (none, [])]) ∧
    (impl _ 2).get u' 5 = .ok none ∧ (impl _ 2).get u' 4095 = .ok (some (some 1, none)) ∧
    (impl _ 2).get u' 64 = .ok (some (some 72, some 73)) := by
  obtain ⟨t, M, h, e1, e2, e3, e4⟩ := exTree
  have hU := union_isTree (I0 := impl Nat 2) (I1 := mapImpl (impl Nat 2) (· + 1)) rfl rfl h
    (map_isTreeC (· + 1) h)
  obtain ⟨u, g1, g2, -, -, g5⟩ := contract_materialize_exact hU.isTree rfl rfl (by decide)
    (Nat.lt_of_le_of_lt (card_le _ _) (by decide))
  obtain ⟨u', k1, k2, -⟩ := g5 [.remove 5, .insert 4095 (some 1, none)]
    ⟨by simp [Op.InRange, unionImpl, impl], bounded_of_depth (by decide) _ _,
      fun _ _ => Nat.le_refl 2⟩
  have gu : ∀ k, k < 4096 → (impl _ 2).get u k = .ok (unionMap M (fun i => (M i).map (· + 1)) k) := by
    intro k hk
    have := g2 k
    rw [tree_get hU.isTree] at this
    exact this.trans (if_pos (show k < min 4096 (2 ^ 64 - 1) by omega))
  have gu' := fun k (hk : k < 4096) => tree_get k2.isTree k
  refine ⟨t, u, u', g1, ?_, ?_, ?_, ?_, ?_, ?_⟩
  · rw [gu 5 (by decide)]; simp [unionMap, e1]
  · rw [gu 4095 (by decide)]; simp [unionMap, e4]
  · rw [show 2 = (unionImpl (impl Nat 2) (mapImpl (impl Nat 2) (· + 1))).D from rfl, k1]
    simp [specRun, Op.spec, restrict, unionMap, e1, e4, put, unionImpl, impl]
  · rw [show 2 = (unionImpl (impl Nat 2) (mapImpl (impl Nat 2) (· + 1))).D from rfl, gu' 5 (by decide)]
    simp [specRun, Op.spec, put, impl, width, unionImpl]
  · rw [show 2 = (unionImpl (impl Nat 2) (mapImpl (impl Nat 2) (· + 1))).D from rfl, gu' 4095 (by decide)]
    simp [specRun, Op.spec, put, impl, width, unionImpl]
  · rw [show 2 = (unionImpl (impl Nat 2) (mapImpl (impl Nat 2) (· + 1))).D from rfl, gu' 64 (by decide)]
    simp [specRun, Op.spec, put, impl, width, unionImpl, restrict, unionMap, e2]

/-! ## C43: sources without exact hierarchy -/

section
variable {S C α : Type} {I : Impl S C α} {s : S} {M : Nat → Option α}

/-- The type `DenseTree` with `EXACT_HIERARCHY = false`; nothing else is changed. -/
def denseInexact (α : Type) (D : Nat) : Impl (DT α) Cursor α := { impl α D with exact := false }

/-- Iteration does not look at `EXACT_HIERARCHY`. -/
theorem iterRun_exact_irrel (b : Bool) (fuel n : Nat) :
    Impl.iterRun { I with exact := b } s fuel n = I.iterRun s fuel n := by
  have hV : Impl.iterVisit { I with exact := b } s = I.iterVisit s :=
    rfl
  have hL : ∀ f st, Impl.iterLoop { I with exact := b } s f st = I.iterLoop s f st := by
    intro f
    induction f with
    | zero => intro st; rfl
    | succ f ih => intro st; unfold Impl.iterLoop; simp only [hV, ih]
  have hN : ∀ st, Impl.iterNext { I with exact := b } s fuel st = I.iterNext s fuel st :=
    fun st => by unfold Impl.iterNext; simp only [hL]
  have hT : ∀ n st, Impl.iterTake { I with exact := b } s fuel n st = I.iterTake s fuel n st := by
    intro n
    induction n with
    | zero => intro st; rfl
    | succ n ih => intro st; unfold Impl.iterTake; simp only [hN, ih]
  unfold Impl.iterRun
  simp only [hT]
  rfl

/-- What materializing an inexact tree gives: a DenseTree with the source's `get` at every index and
iteration, ascending `key_values()`, obeying the whole trait contract (C27–C39) except exactness, and
which can be dropped, freeing everything and dropping the stored values. -/
def ReadableDense (I : Impl S C α) (s : S) (M : Nat → Option α) (t : DT α) : Prop :=
  (∀ k, (impl α I.D).get t k = I.get s k) ∧
  (∃ F, ∀ fuel, F ≤ fuel → ∀ n, (impl α I.D).iterRun t fuel n = I.iterRun s fuel n) ∧
  keyValues t = .ok (keysOf (64 ^ I.D) M, (valuesOf (64 ^ I.D) M).map some) ∧
  IsTreeC (denseInexact α I.D) t M ∧
  ∃ vs heap', dropImpl I.D t = .ok (vs, heap') ∧
    List.Perm vs (valuesOf (64 ^ I.D) M) ∧ ∀ a, heap'.node a = none

/-- The DenseTree `t` of depth `D` holds the map `M` and behaves as that map under every further
supported history whose operations leave the set of occupied aligned blocks of 64 keys unchanged
(`KeepsBlocks`: overwriting and modifying values, adding keys to a block that holds an element,
removing keys from a block that keeps another one, removing absent keys, reading). After the history
`get`, iteration, cursors and `key_values()` are the map's, and dropping frees everything. -/
def BlockUsableDense (D : Nat) (t : DT α) (M : Nat → Option α) : Prop :=
  ∀ ops, LaterHistory D M ops → KeepsBlocks M ops →
    ∃ t', run D t ops = .ok (t', (specRun M ops).2) ∧
    IsTreeC (denseInexact α D) t' (specRun M ops).1 ∧ GetIterIs (impl α D) t' (specRun M ops).1 ∧
    (∃ (ks : List Nat) (vs : List α), keyValues t' = .ok (ks, vs.map some) ∧
      ks.length = vs.length ∧ ks.Nodup ∧
      ∀ k v, (∃ j : Nat, ks[j]? = some k ∧ vs[j]? = some v) ↔
        k < 64 ^ D ∧ (specRun M ops).1 k = some v) ∧
    ∃ vs heap', dropImpl D t' = .ok (vs, heap') ∧
      List.Perm vs (valuesOf (64 ^ D) (specRun M ops).1) ∧ ∀ a, heap'.node a = none

theorem blockUsable_of_rep {D : Nat} {t : DT α} (h1 : 1 ≤ D) (h9 : D ≤ 9)
    (R : DRep NoNode D (fixT t) M) : BlockUsableDense D t M := by
  intro ops h hb
  obtain ⟨t', e, R'⟩ := run_fix h9 ops t M R (fun op hop => by
    cases op with
    | remove k => exact h.removeDepth k hop
    | _ => exact h1) h.inRange h.bounded hb
  obtain ⟨T', Kr, L', hT'⟩ := R'.lawfulX h1 h9
  have ht : IsTreeC (denseInexact α D) t' (specRun M ops).1 := by
    refine ⟨T', Kr, LawfulC.unfix L', fun i hi => ?_⟩
    show T'.content (path 64 D i) = _
    rw [hT', unpath_path 64 D i hi]
  refine ⟨t', e, ht, ?_, by have h := keyValues_spec R'; rwa [keyValues_fix] at h, ?_⟩
  · obtain ⟨g1, F, g2⟩ := getIter ht.isTree
    refine ⟨g1, F, fun fuel hf n => ?_⟩
    rw [← iterRun_exact_irrel false]
    exact g2 fuel hf n
  · obtain ⟨vs, heap', d1, d2, d3⟩ := dropImpl_spec R' h1
    obtain ⟨heap'', d4, d5⟩ := dropImpl_unfix d1 d3
    exact ⟨vs, heap'', d4, d2, d5⟩

/-- **C43**, the part that holds: materializing any tree that obeys the contract, without exact
hierarchy (64-bit masks, depth at most 9, fewer than 2^32 elements), gives an equal readable DenseTree
(`ReadableDense`) that also behaves as the map under every further history that leaves the set of
occupied blocks of 64 keys unchanged (`BlockUsableDense`); at depth 1 it is fully usable. The only exception is that the depth is at least 2
and the content is empty, when it may be undefined behaviour instead.

Missing from C43: an empty result always (`C43_fails_empty_root`, `C43_fails_empty`), exactness
(`C40_fails_materialized`) and, at depth ≥ 2, later histories that occupy a new block
(`C43_fails_insert`) or empty one (`C43_fails_remove`); what still works after insertions:
`C43_insert_only_partial`. -/
theorem contract_materialize (h : IsTree I s M) (hN : I.N = 1) (hex : I.exact = false)
    (h9 : I.D ≤ 9) (hroom : card (64 ^ I.D) M < 2 ^ 32) :
    (∃ t, materialize I s = .ok t ∧ ReadableDense I s M t ∧
      BlockUsableDense I.D t (restrict (64 ^ I.D) M) ∧
      (I.D = 1 → UsableDense I.D t (restrict (64 ^ I.D) M))) ∨
    (materialize I s = .error .ub ∧ 2 ≤ I.D ∧ ∀ k, k < 64 ^ I.D → M k = none) := by
  have h' := h
  obtain ⟨T, K, L, hc⟩ := h'
  have h1 := L.cfg.depth
  have hW : width I.N = 64 := by rw [hN]; rfl
  have X : Src I s T K (restrict (64 ^ I.D) M) := by
    refine ⟨L, hN, h9, fun i hi => ?_, by rw [card_restrict]; exact hroom⟩
    have := hc i (by rw [hW]; exact hi)
    rw [hW] at this
    rw [this, restrict, if_pos hi]
  obtain ⟨hno, hyes⟩ := materialize_sparse X hex (fun k hk => by
    rw [restrict, if_neg (by omega)])
  by_cases hl : LiveS I.D T []
  · left
    obtain ⟨t, e, R, hk, hd⟩ := hyes hl
    obtain ⟨T', Kr, L', hT'⟩ := R.lawfulX h1 h9
    have L'' := LawfulC.unfix L'
    have ht : IsTreeC (denseInexact α I.D) t M := by
      refine ⟨T', Kr, L'', fun i hi => ?_⟩
      show T'.content (path 64 I.D i) = _
      rw [hT', unpath_path 64 I.D i hi, restrict, if_pos (show i < 64 ^ I.D from hi)]
    refine ⟨t, e, ⟨fun k => ?_, ?_, ?_, ht, ?_⟩, blockUsable_of_rep h1 h9 R, ?_⟩
    · refine (tree_get ht.isTree k).trans ?_
      rw [tree_get h, hN]
      rfl
    · obtain ⟨F1, f1⟩ := contract_iter ht.isTree
      obtain ⟨F2, f2⟩ := contract_iter h
      refine ⟨max F1 F2, fun fuel hf n => ?_⟩
      rw [← iterRun_exact_irrel false]
      refine (f1 fuel (by omega) n).trans ?_
      rw [f2 fuel (by omega) n, hN]
      rfl
    · unfold keyValues
      rw [keysOf_restrict] at hk
      rw [valuesOf_restrict] at hd
      rw [if_pos ⟨by simp [hk], by simp [hd]⟩, hk, hd]
      simp
    · obtain ⟨vs, heap', d1, d2, d3⟩ := dropImpl_spec R h1
      obtain ⟨heap'', d4, d5⟩ := dropImpl_unfix d1 d3
      rw [valuesOf_restrict] at d2
      exact ⟨vs, heap'', d4, d2, d5⟩
    · intro hD1
      have hfix : fixT t = t := by
        obtain ⟨loc, K', S'⟩ := R
        have : fixHeap t.heap = t.heap := by
          unfold fixHeap
          have : (fun a => (t.heap.node a).map fixLen) = t.heap.node := by
            funext a
            cases e : t.heap.node a with
            | none => rfl
            | some n =>
              obtain ⟨p, hp⟩ := S'.tree.rep.cover a (fixLen n) (by simp [fixT, fixHeap, e])
              obtain ⟨n', g1, g2, -⟩ := S'.tree.rep.node p a hp
              simp only [fixT, fixHeap, e, Option.map_some, Option.some.injEq] at g1
              subst g1
              rw [fixLen_kind] at g2
              have hkind : kindOf I.D p = .term := by unfold kindOf; rw [if_neg (by omega)]
              rw [hkind] at g2
              unfold fixLen
              simp [g2]
          rw [this]
        unfold fixT
        rw [this]
      rw [hfix] at R
      refine usable_of_rep h1 h9 ?_
      obtain ⟨loc, K', S'⟩ := R
      refine ⟨loc, K', S'.tree, ?_, S'.data, S'.den⟩
      intro p a _ hp hne
      have := (S'.tree.valid p a hp).2
      exact absurd (List.length_eq_zero_iff.1 (by omega)) hne
  · right
    refine ⟨hno hl, ?_, ?_⟩
    · rcases Nat.lt_or_ge 1 I.D with h2 | h2
      · exact h2
      · exact absurd ⟨[], List.prefix_refl _, ValidPath.nil, by simp; omega,
          fun r i hr => by simp at hr⟩ hl
    · intro k hk
      cases hM : M k with
      | none => rfl
      | some v =>
        exfalso
        refine hl (X.live_of_below (q := []) ⟨path 64 I.D k, ?_, ?_, ?_⟩ (by simp; omega))
        · exact path_lt I.D hk
        · simp [path_length]
        · rw [List.nil_append, unpath_path 64 I.D k hk, restrict, if_pos hk, hM]; rfl

/-- **C43** is false for empty results: materializing any tree of depth ≥ 2 without exact hierarchy
whose root mask is empty is undefined behaviour. -/
theorem C43_fails_empty_root (hD : 2 ≤ I.D) (hex : I.exact = false) {c c' : C}
    (hc : I.new s = .ok c) (hm : I.selectU c s 0 0 = .ok ([0], c')) :
    materialize I s = .error .ub := by
  have hleft : I.D - 1 = (I.D - 2) + 1 := by omega
  have ht : ∀ (body : SSt C α → Nat → R (SSt C α)) (v : SSt C α), traverseM body v [0] = .ok v := by
    intro body v
    rw [traverseM_eq]
    have : Mask.ones [0] = [] := by decide
    rw [this]; rfl
  unfold materialize fromRoot
  rw [hc]
  simp only [bind_ok]
  rw [if_neg (by simp [hex]), hleft]
  unfold fromSparse
  simp only
  rw [show I.D - 1 - (I.D - 2 + 1) = 0 by omega, hm]
  simp only [bind_ok, getU, List.getElem?_cons_zero, ht, List.isEmpty_nil, if_true]
  rfl

end

/-! ### The failures, on public histories -/

/-- The DenseTree with the given keys inserted in order (value = key). -/
def denseOf (D : Nat) (keys : List Nat) : R (DT Nat) := do
  let t ← default Nat D
  let (t, _) ← run D t (keys.map fun k => .insert k k)
  return t

/-- `intersection(&a, &b).materialize()` for DenseTrees with the given keys. -/
def interOf (D : Nat) (a b : List Nat) : R (DT (Nat × Nat)) := do
  let a ← denseOf D a
  let b ← denseOf D b
  materialize (interImpl (impl Nat D) (impl Nat D)) (a, b)

/-- The partial theorem applies: a non-trivial intersection is materialized and readable. -/
example : ((do
    let t ← interOf 2 [0, 1, 65, 130] [1, 64, 130]
    return (t.keys, ← (impl _ 2).get t 1, ← (impl _ 2).get t 130, ← (impl _ 2).get t 64)) :
    R (List Nat × Option (Nat × Nat) × Option (Nat × Nat) × Option (Nat × Nat))) =
    .ok ([usizeMod - 1, 1, 130], some (1, 1), some (130, 130), none) := by rfl

/-- A block-preserving history on a materialized intersection: a new key in an occupied block, a
removal, an overwritten value. -/
example : ((do
    let t ← interOf 2 [0, 1, 65, 130] [0, 1, 64, 130]
    let (t, os) ← run 2 t [.insert 2 (7, 8), .remove 0, .remove 65, .insert 130 (9, 9),
      .getOrInsert 131 (1, 1) (fun v => (v.1, 5))]
    return (os, ← (impl _ 2).get t 0, ← (impl _ 2).get t 2, ← (impl _ 2).get t 131,
      ← (impl _ 2).get t 4000)) :
    R (List (Option (Nat × Nat) × List (Nat × Nat)) × Option (Nat × Nat) × Option (Nat × Nat) ×
      Option (Nat × Nat) × Option (Nat × Nat))) =
    .ok ([(none, []), (some (0, 0), []), (none, []), (none, [(130, 130)]), (some (1, 1), [])],
      none, some (7, 8), some (1, 5), none) := by rfl

/-- **C43** is false: the materialized intersection of `{0}` and `{64}` (an empty result) is
undefined behaviour. -/
theorem C43_fails_empty : interOf 2 [0] [64] = .error .ub := by rfl

/-- **C43** is false: the tree materialized from `{0} ∩ {0}` holds key 0 (and reads correctly), but
after inserting key 64, reading the absent key 128 is undefined behaviour (a map would answer
`None`): `from_parts` stores a length without the sentinel, so the insertion overwrites it. -/
theorem C43_fails_insert :
    ((do let t ← interOf 2 [0] [0]
         return (← (impl _ 2).get t 0, ← (impl _ 2).get t 128)) :
      R (Option (Nat × Nat) × Option (Nat × Nat))) = .ok (some (0, 0), none) ∧
    ((do let t ← interOf 2 [0] [0]
         let o ← Dense.insert 2 t 64 (5, 5)
         (impl _ 2).get o.tree 128) : R (Option (Nat × Nat))) = .error .ub := ⟨by rfl, by rfl⟩

/-- **C43** is false: in the tree of depth 3 materialized from `{0, 64} ∩ {0, 64}`, removing the
present key 0 is undefined behaviour; removing the present key 64 returns its value, but then reading
the remaining key 0 is undefined behaviour: the removal takes a branch node for empty and frees it. -/
theorem C43_fails_remove :
    ((do let t ← interOf 3 [0, 64] [0, 64]
         return (← (impl _ 3).get t 0, ← (impl _ 3).get t 64)) :
      R (Option (Nat × Nat) × Option (Nat × Nat))) = .ok (some (0, 0), some (64, 64)) ∧
    ((do let t ← interOf 3 [0, 64] [0, 64]
         remove 3 t 0) : R (DT (Nat × Nat) × Option (Nat × Nat))) = .error .ub ∧
    ((do let t ← interOf 3 [0, 64] [0, 64]
         let (_, o) ← remove 3 t 64
         return o) : R (Option (Nat × Nat))) = .ok (some (64, 64)) ∧
    ((do let t ← interOf 3 [0, 64] [0, 64]
         let (t, _) ← remove 3 t 64
         (impl _ 3).get t 0) : R (Option (Nat × Nat))) = .error .ub :=
  ⟨by decide +kernel, by rfl, by decide +kernel, by decide +kernel⟩

/-- **C40** is false for materialized trees: the type claims `EXACT_HIERARCHY`, but in the DenseTree
materialized from `{64} ∩ {65}` the root mask has bit 1 set although the node below has an empty mask
(and every key is absent). -/
theorem C40_fails_materialized :
    (impl (Nat × Nat) 2).exact = true ∧
    ((do let t ← interOf 2 [64] [65]
         let c ← (impl _ 2).new t
         let (masks, _) ← runMoves (impl _ 2) t c [⟨true, 0, 0⟩, ⟨true, 1, 1⟩]
         return (masks, ← (impl _ 2).get t 64, ← (impl _ 2).get t 65)) :
      R (List Mask × Option (Nat × Nat) × Option (Nat × Nat))) = .ok ([[2], [0]], none, none) :=
  ⟨rfl, by rfl⟩

end Hibit.Props
