import Verif.Props.MatFail
import Verif.Dense.WeakHistory
/-!
# Property C43: what survives later insertions

An insertion that adds a child to a branch node of a tree materialized without exact hierarchy destroys
the node's sentinel (`C43_fails_insert_any`). The sentinel is only read by lookups of absent keys: here
is everything that stays defined and correct.
-/
namespace Hibit.Props
open Hibit Hibit.Dense

section
variable {S C α : Type}

/-- The DenseTree `t` of depth `D` holds the map `M` and behaves as that map under every further supported
history made of: `insert` and `get_or_insert` of *any* key, `key_values_mut`, `get` of any key whose
aligned block of 64 keys holds an element at that time, and `remove` of any key whose block holds another
element (`GrowsOnly`). After the history: `get` is the map's for every key in an occupied block, iteration
is the map's, `key_values()` lists the content, and dropping the tree frees everything and drops exactly
the stored values. -/
def GrowUsableDense (D : Nat) (t : DT α) (M : Nat → Option α) : Prop :=
  ∀ ops, LaterHistory D M ops → Weak.GrowsOnly M ops →
    ∃ t', run D t ops = .ok (t', (specRun M ops).2) ∧
    (∀ k, k < 64 ^ D → Occupied (specRun M ops).1 (k / 64) →
      (impl α D).get t' k = .ok ((specRun M ops).1 k)) ∧
    (∃ F, ∀ fuel, F ≤ fuel → ∀ n, (impl α D).iterRun t' fuel n =
      .ok ((List.range n).map (fun k => (listing (64 ^ D) (specRun M ops).1)[k]?))) ∧
    (∃ (ks : List Nat) (vs : List α), keyValues t' = .ok (ks, vs.map some) ∧
      ks.length = vs.length ∧ ks.Nodup ∧
      ∀ k v, (∃ j : Nat, ks[j]? = some k ∧ vs[j]? = some v) ↔
        k < 64 ^ D ∧ (specRun M ops).1 k = some v) ∧
    ∃ vs heap', dropImpl D t' = .ok (vs, heap') ∧
      List.Perm vs (valuesOf (64 ^ D) (specRun M ops).1) ∧ ∀ a, heap'.node a = none

theorem growUsable_of_rep {D : Nat} {t : DT α} {M : Nat → Option α} (h1 : 1 ≤ D) (h9 : D ≤ 9)
    (R : Weak.DRep D t M) : GrowUsableDense D t M := by
  intro ops h hg
  obtain ⟨t', e, R'⟩ := Weak.run_spec h9 ops t M R (fun op hop => by
    cases op with
    | remove k => exact h.removeDepth k hop
    | _ => exact h1) h.inRange h.bounded hg
  refine ⟨t', e, ?_, ?_, Weak.keyValues_spec R', Weak.dropImpl_spec R' h1⟩
  · rintro k hk ⟨k', g1, g2⟩
    exact Weak.get_spec R' h1 h9 hk g2 g1
  · obtain ⟨loc, K, S'⟩ := R'
    have L := S'.lawful h1 h9
    obtain ⟨F, hF⟩ := contract_iter (I := Weak.idealImpl α D (specRun M ops).1) (s := t')
      (M := (specRun M ops).1) ⟨_, _, L, fun i hi => by
        show (specRun M ops).1 (unpath 64 (path 64 D i)) = _
        rw [unpath_path 64 D i hi]⟩
    refine ⟨F, fun fuel hf n => ?_⟩
    rw [← Weak.iterRun_ideal t' (specRun M ops).1]
    exact hF fuel hf n

end

section
variable {x : Bool} {S C α : Type} {I : Impl S C α} {s : S} {M : Nat → Option α}

/-- **C43**, later insertions (the part that holds): whatever tree expression without exact hierarchy (64-bit
masks, depth at most 9, fewer than 2^32 elements) was materialized, the result behaves as the content
under every further history of insertions (of new blocks, too) and of reads and removals in occupied
blocks. The other operations are exactly where it fails: reading a key of an unoccupied block
(`C43_fails_insert_any`) and removing the only element of a block (`C43_fails_remove_any`). -/
theorem C43_insert_only_partial (h : Built x I s M) (hN : I.N = 1) (hex : I.exact = false)
    (h9 : I.D ≤ 9) (hroom : card (64 ^ I.D) M < 2 ^ 32) {t : DT α} (ht : materialize I s = .ok t) :
    GrowUsableDense I.D t (restrict (64 ^ I.D) M) := by
  obtain ⟨loc, K, S', -, -⟩ := mat_parts (built_isTree h).1 hN hex h9 hroom ht
  obtain ⟨_, _, L, _⟩ := (built_isTree h).1
  exact growUsable_of_rep L.cfg.depth h9 (Weak.DRep.of_fix ⟨loc, K, S'⟩)

/-- In the tree materialized from `intersection(exD, exU)` (only key 5): insert 64 (a new block), 70 and
4000, read 65 (absent, its block is occupied), remove 70 – then iterate. (Reading 200 is undefined
behaviour: the example after `C43_fails_insert_any`.) -/
example : ∃ t, materialize (interImpl (Dense.impl Nat 2) (Sparse.impl Nat 1 2)) (exD, exU) = .ok t ∧
    Weak.GrowsOnly (restrict (64 ^ 2) (interMap exDM exUM))
      [.insert 64 (1, 1), .insert 70 (2, 2), .insert 4000 (3, 3), .get 65, .remove 70] ∧
    (do
      let (t, os) ← run 2 t [.insert 64 (1, 1), .insert 70 (2, 2), .insert 4000 (3, 3), .get 65,
        .remove 70]
      let it ← (Dense.impl _ 2).iterRun t 9 4
      return (os.map (·.1), it) : R _) =
      .ok ([none, none, none, none, some (2, 2)],
        [some (5, (56, 2)), some (64, (1, 1)), some (4000, (3, 3)), none]) := by
  obtain ⟨t, e1, -⟩ := exMatFail
  refine ⟨t, e1, ⟨trivial, trivial, trivial, ⟨64, by decide, by simp [Op.spec, put]⟩,
    ⟨64, by decide, by simp [Op.spec, put]⟩, trivial⟩, ?_⟩
  have : (do
      let t ← materialize (interImpl (Dense.impl Nat 2) (Sparse.impl Nat 1 2)) (exD, exU)
      let (t, os) ← run 2 t [.insert 64 (1, 1), .insert 70 (2, 2), .insert 4000 (3, 3), .get 65,
        .remove 70]
      let it ← (Dense.impl _ 2).iterRun t 9 4
      return (os.map (·.1), it) : R _) =
      .ok ([none, none, none, none, some (2, 2)],
        [some (5, (56, 2)), some (64, (1, 1)), some (4000, (3, 3)), none]) := by decide +kernel
  rw [e1] at this
  exact this

end

end Hibit.Props
