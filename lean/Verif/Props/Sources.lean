import Verif.Sources
import Verif.Props.Trees
/-!
# C79: the source iterator of `multi_union` / `multi_intersection`

`src k` is what the `k`-th clone of the source iterator yields. Nothing obliges a safe `Clone` to yield the same trees
every time.
-/
namespace Hibit.Props
open Hibit

section
variable {S C δ : Type} {I : Impl S C δ} {src : Nat → List S} {content : S → Nat → Option δ}

/-- **C79, `multi_union` (partial)**: whatever the later clones of the source iterator yield, `iter()` over `multi_union`
is safe and lists the union of the trees the first clone yielded. -/
theorem C79_multi_union_partial (hcfg : ValidCfg I.N I.D) (hD : 2 ≤ I.D) (hcap : (src 0).length ≤ 32)
    (hs : ∀ s ∈ src 0, Built true I s (content s)) :
    ∃ F, ∀ fuel, F ≤ fuel → ∀ n, (fromClones (multiUnionImpl I)).iterRun src fuel n =
      .ok ((List.range n).map fun k =>
        (listing (width I.N ^ I.D) (multiUnionMap ((src 0).map content)))[k]?) :=
  (getIter (unionClones_isTree (multiUnion_isTree hcfg hD hcap fun s h => (built_isTree (hs s h)).2 rfl))).2

/-- **C79, `multi_intersection` (partial)**: if every later clone yields the trees of the first one, then possibly
more, `iter()` is safe and lists the intersection of the first clone's trees. -/
theorem C79_multi_intersection_partial (hne : src 0 ≠ []) (hcap : (src 0).length ≤ 32) (hp : ∀ k, src 0 <+: src k)
    (hs : ∀ s ∈ src 0, Built false I s (content s)) :
    ∃ F, ∀ fuel, F ≤ fuel → ∀ n, (fromClones (multiInterImpl I)).iterRun src fuel n =
      .ok ((List.range n).map fun k =>
        (listing (width I.N ^ I.D) (multiInterMap ((src 0).map content)))[k]?) :=
  (getIter (interClones_isTree hp (multiInter_isTree hne hcap fun s h => (built_isTree (hs s h)).1).isTree)).2

/-- **C79, `get` (partial)**: a `get` uses one clone, and answers for the trees that clone yields. -/
theorem C79_get_partial (k : Nat) (hcfg : ValidCfg I.N I.D) (hD : 2 ≤ I.D) (hne : src k ≠ [])
    (hcap : (src k).length ≤ 32) (hs : ∀ s ∈ src k, Built true I s (content s)) :
    ∀ i, i < width I.N ^ I.D → i < 2 ^ 64 - 1 →
      (multiUnionImpl I).get (src k) i = .ok (multiUnionMap ((src k).map content) i) ∧
      (multiInterImpl I).get (src k) i = .ok (multiInterMap ((src k).map content) i) := by
  intro i hi hi'
  exact ⟨(getIter (multiUnion_isTree hcfg hD hcap fun s h => (built_isTree (hs s h)).2 rfl)).1 i hi hi',
    (getIter (multiInter_isTree hne hcap fun s h => (built_isTree (hs s h)).1).isTree).1 i hi hi'⟩

/-- **C79 fails**: if the second clone of the iterator has lost trees (yields a proper prefix of the first), `iter()` over
`multi_intersection` is undefined behaviour (`unwrap_unchecked` of `None`), whatever the trees. -/
theorem C79_fails {m : Nat} (hcap : (src 0).length ≤ 32) (hm : m < (src 0).length)
    (h1 : src 1 = (src 0).take m) (hs : ∀ s ∈ src 0, Built false I s (content s)) (fuel n : Nat) :
    (fromClones (multiInterImpl I)).iterRun src fuel n = .error .ub := by
  unfold Impl.iterRun
  rw [interClones_short hcap hm h1 fun s h => ⟨_, (built_isTree (hs s h)).1⟩]
  rfl

/-- **C79 fails**, inside another operation: so is `iter()` over the `union` of such a `multi_intersection` with any tree
(`union` selects through the checked `select_level_node`, which trusts the clone too). -/
theorem C79_fails_union {S' C' δ' : Type} {J : Impl S' C' δ'} {b : S'} {B : Nat → Option δ'} {m : Nat}
    (hcap : (src 0).length ≤ 32) (hm : m < (src 0).length)
    (h1 : src 1 = (src 0).take m) (hs : ∀ s ∈ src 0, Built false I s (content s)) (hb : Built true J b B) (fuel n : Nat) :
    (unionImpl (fromClones (multiInterImpl I)) J).iterRun (src, b) fuel n = .error .ub := by
  obtain ⟨c, e, es, _⟩ := interClones_short_select hcap hm h1 fun s h => ⟨_, (built_isTree (hs s h)).1⟩
  obtain ⟨T, K, L, _⟩ := (built_isTree hb).1
  obtain ⟨c', e', _⟩ := L.new_ok
  have : (unionImpl (fromClones (multiInterImpl I)) J).iterNew (src, b) = .error .ub := by
    simp only [Impl.iterNew, unionImpl, e, e', bind_ok, pure_eq_ok, es]
    rfl
  unfold Impl.iterRun
  rw [this]
  rfl

end

/-- An iterator whose clones yield `exD` twice, and only once from the second clone on. -/
def exShrinking : Nat → List (Dense.DT Nat) := fun k => if k = 0 then [exD, exD] else [exD]

/-- `C79_fails`, `C79_multi_union_partial`: the same iterator, undefined behaviour in one and harmless in the other. -/
example (fuel n : Nat) : (fromClones (multiInterImpl (Dense.impl Nat 2))).iterRun exShrinking fuel n = .error .ub :=
  C79_fails (m := 1) (content := fun _ => exDM) (by decide) (by decide) rfl
    (fun s hs => .weaken (exDs_built s (by simp [exShrinking] at hs; simp [hs]))) fuel n

example (fuel n : Nat) : (unionImpl (fromClones (multiInterImpl (Dense.impl Nat 2))) (Dense.impl Nat 2)).iterRun
    (exShrinking, exD) fuel n = .error .ub :=
  C79_fails_union (m := 1) (content := fun _ => exDM) (by decide) (by decide) rfl
    (fun s hs => .weaken (exDs_built s (by simp [exShrinking] at hs; simp [hs]))) exD_built fuel n

example : ∃ F, ∀ fuel, F ≤ fuel → (fromClones (multiUnionImpl (Dense.impl Nat 2))).iterRun exShrinking fuel 4 =
    .ok [some (5, [56, 56]), some (64, [72, 72]), some (200, [202, 202]), none] := by
  obtain ⟨F, h⟩ := C79_multi_union_partial (src := exShrinking) (content := fun _ => exDM)
    (I := Dense.impl Nat 2) ⟨by decide, by decide, by decide⟩ (by decide) (by decide)
    (fun s hs => exDs_built s (by simp [exShrinking] at hs; simp [hs]))
  refine ⟨F, fun fuel hf => ?_⟩
  rw [h fuel hf]
  have : listing (width (Dense.impl Nat 2).N ^ (Dense.impl Nat 2).D)
      (multiUnionMap ((exShrinking 0).map fun _ => exDM)) = [(5, [56, 56]), (64, [72, 72]), (200, [202, 202])] := by
    decide +kernel
  rw [this]
  rfl

/-- `C79_multi_intersection_partial`: an iterator whose clones grow. -/
def exGrowing : Nat → List (Dense.DT Nat) := fun k => exD :: List.replicate k exD

example : ∃ F, ∀ fuel, F ≤ fuel → (fromClones (multiInterImpl (Dense.impl Nat 2))).iterRun exGrowing fuel 4 =
    .ok [some (5, [56]), some (64, [72]), some (200, [202]), none] := by
  obtain ⟨F, h⟩ := C79_multi_intersection_partial (src := exGrowing) (content := fun _ => exDM)
    (I := Dense.impl Nat 2) (by simp [exGrowing]) (by simp [exGrowing]) (fun k => ⟨List.replicate k exD, by simp [exGrowing]⟩)
    (fun s hs => .weaken (exDs_built s (by simp [exGrowing] at hs; simp [hs])))
  refine ⟨F, fun fuel hf => ?_⟩
  rw [h fuel hf]
  have : listing (width (Dense.impl Nat 2).N ^ (Dense.impl Nat 2).D)
      (multiInterMap ((exGrowing 0).map fun _ => exDM)) = [(5, [56]), (64, [72]), (200, [202])] := by
    decide +kernel
  rw [this]
  rfl

/-- Another failure: clones of the same length yielding different trees. The cursor of `exD` holds a node of `exD`,
whose data index is outside the data of the empty tree which the later clones yield. (Its memory is that of `exD`: both
trees live in the program's memory.) -/
def exSwapped : Nat → List (Dense.DT Nat) := fun k =>
  if k = 0 then [exD] else if k ≤ 2 then [exD] else [{ exD with data := [none], keys := [0] }]

example : (fromClones (multiInterImpl (Dense.impl Nat 2))).iterRun exSwapped 10 1 = .error .ub := by decide +kernel

end Hibit.Props
