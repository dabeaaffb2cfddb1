import Verif.Props.Trees
/-!
# C60: set algebra of tree expressions

`SameTree`: two trees cannot be told apart by `get` (at any `usize`) or by iteration. The laws are
stated between expressions over arbitrary trees; `map` brings the data of both sides to the same type.
-/
namespace Hibit.Props

-- instance search only (the examples compare nested tuples)
set_option synthInstance.maxSize 4000

open Hibit

/-- `get` agrees at every `usize` (also where it panics or answers out of range), and so do any number
of calls of `next`. -/
def SameTree {S C S' C' δ : Type} (I : Impl S C δ) (s : S) (I' : Impl S' C' δ) (s' : S') : Prop :=
  (∀ i, I.get s i = I'.get s' i) ∧
  ∃ F, ∀ fuel, F ≤ fuel → ∀ n, I.iterRun s fuel n = I'.iterRun s' fuel n

theorem same_of_map {x y : Bool} {S C S' C' δ : Type} {I : Impl S C δ} {s : S} {I' : Impl S' C' δ} {s' : S'}
    {M M' : Nat → Option δ} (h : Built x I s M) (h' : Built y I' s' M') (hN : I.N = I'.N)
    (hD : I.D = I'.D) (hM : ∀ i, M i = M' i) : SameTree I s I' s' := by
  obtain rfl : M = M' := funext hM
  have g := (built_isTree h).1
  have g' := (built_isTree h').1
  refine ⟨fun i => ?_, ?_⟩
  · rw [tree_get g, tree_get g', ← hN, ← hD]
  · obtain ⟨F1, f1⟩ := contract_iter g
    obtain ⟨F2, f2⟩ := contract_iter g'
    refine ⟨max F1 F2, fun fuel hf n => ?_⟩
    rw [f1 fuel (by omega) n, f2 fuel (by omega) n, ← hN, ← hD]

/-! ## Data of the two sides -/

/-- `(x, y) ↦ (y, x)` -/
def swapPair {δ ε : Type} (e : δ × ε) : ε × δ := (e.2, e.1)

/-- Data of `union(union(a, b), c)` as data of `union(a, union(b, c))`. -/
def assocU {δ0 δ1 δ2 : Type} (e : Option (Option δ0 × Option δ1) × Option δ2) :
    Option δ0 × Option (Option δ1 × Option δ2) :=
  let x := e.1.bind (·.1)
  let y := e.1.bind (·.2)
  (x, match y, e.2 with
    | none, none => none
    | y, z => some (y, z))

/-- Data of `intersection(intersection(a, b), c)` as data of `intersection(a, intersection(b, c))`. -/
def assocI {δ0 δ1 δ2 : Type} (e : (δ0 × δ1) × δ2) : δ0 × δ1 × δ2 := (e.1.1, e.1.2, e.2)

section
variable {x : Bool} {S0 C0 δ0 S1 C1 δ1 S2 C2 δ2 : Type} {I0 : Impl S0 C0 δ0} {I1 : Impl S1 C1 δ1}
  {I2 : Impl S2 C2 δ2} {a : S0} {b : S1} {c : S2} {A : Nat → Option δ0} {B : Nat → Option δ1}
  {E : Nat → Option δ2}

/-- **C60**, union: commutative, associative, idempotent. -/
theorem C60_union (h1 : I0.N = I1.N) (h2 : I0.D = I1.D) (h3 : I1.N = I2.N) (h4 : I1.D = I2.D)
    (ha : Built true I0 a A) (hb : Built true I1 b B) (hc : Built true I2 c E) :
    SameTree (unionImpl I0 I1) (a, b) (mapImpl (unionImpl I1 I0) swapPair) (b, a) ∧
    SameTree (mapImpl (unionImpl (unionImpl I0 I1) I2) assocU) ((a, b), c)
      (unionImpl I0 (unionImpl I1 I2)) (a, (b, c)) ∧
    SameTree (mapImpl (unionImpl I0 I0) (·.1)) (a, a) (mapImpl I0 some) a := by
  refine ⟨?_, ?_, ?_⟩
  · refine same_of_map (.union h1 h2 ha hb) (.map _ (.union h1.symm h2.symm hb ha)) h1 h2 fun i => ?_
    simp only [unionMap]
    cases A i <;> cases B i <;> rfl
  · refine same_of_map (.map _ (.union (h1.trans h3) (h2.trans h4) (.union h1 h2 ha hb) hc))
      (.union h1 h2 ha (.union h3 h4 hb hc)) rfl rfl fun i => ?_
    simp only [unionMap]
    cases A i <;> cases B i <;> cases E i <;> rfl
  · refine same_of_map (.map _ (.union rfl rfl ha ha)) (.map _ ha) rfl rfl fun i => ?_
    simp only [unionMap]
    cases A i <;> rfl

/-- With `exD`, `exU` and `map(exD, +1)`; and the two sides of associativity run. -/
example := C60_union (I0 := Dense.impl Nat 2) (I1 := Sparse.impl Nat 1 2)
  (I2 := mapImpl (Dense.impl Nat 2) (· + 1)) rfl rfl rfl rfl exD_built exU_built
  (.map _ exD_built)

example : (unionImpl (Dense.impl Nat 2) (unionImpl (Sparse.impl Nat 1 2) (Dense.impl Nat 2))).iterRun
      (exD, (exU, exD)) 9 5 = .ok [some (5, (some 56, some (some 2, some 56))),
        some (64, (some 72, some (none, some 72))), some (200, (some 202, some (none, some 202))),
        some (4095, (none, some (some 3, none))), none] ∧
    (mapImpl (unionImpl (unionImpl (Dense.impl Nat 2) (Sparse.impl Nat 1 2)) (Dense.impl Nat 2)) assocU).iterRun
      ((exD, exU), exD) 9 5 = .ok [some (5, (some 56, some (some 2, some 56))),
        some (64, (some 72, some (none, some 72))), some (200, (some 202, some (none, some 202))),
        some (4095, (none, some (some 3, none))), none] := by decide +kernel

/-- **C60**, intersection: commutative, associative, idempotent. -/
theorem C60_intersection (h1 : I0.N = I1.N) (h2 : I0.D = I1.D) (h3 : I1.N = I2.N) (h4 : I1.D = I2.D)
    (ha : Built x I0 a A) (hb : Built x I1 b B) (hc : Built x I2 c E) :
    SameTree (interImpl I0 I1) (a, b) (mapImpl (interImpl I1 I0) swapPair) (b, a) ∧
    SameTree (mapImpl (interImpl (interImpl I0 I1) I2) assocI) ((a, b), c)
      (interImpl I0 (interImpl I1 I2)) (a, (b, c)) ∧
    SameTree (mapImpl (interImpl I0 I0) (·.1)) (a, a) I0 a := by
  refine ⟨?_, ?_, ?_⟩
  · refine same_of_map (.inter h1 h2 ha hb) (.map _ (.inter h1.symm h2.symm hb ha)) h1 h2 fun i => ?_
    simp only [interMap]
    cases A i <;> cases B i <;> rfl
  · refine same_of_map (.map _ (.inter (h1.trans h3) (h2.trans h4) (.inter h1 h2 ha hb) hc))
      (.inter h1 h2 ha (.inter h3 h4 hb hc)) rfl rfl fun i => ?_
    simp only [interMap]
    cases A i <;> cases B i <;> cases E i <;> rfl
  · refine same_of_map (.map _ (.inter rfl rfl ha ha)) ha rfl rfl fun i => ?_
    simp only [interMap]
    cases A i <;> rfl

example := C60_intersection (I0 := Dense.impl Nat 2) (I1 := Sparse.impl Nat 1 2) (I2 := exUnion)
  rfl rfl rfl rfl exD_built exU_built exUnion_built

/-- **C60**, absorption: `a ∩ (a ∪ b)` and `a ∪ (a ∩ b)` are `a`. -/
theorem C60_absorption (h1 : I0.N = I1.N) (h2 : I0.D = I1.D)
    (ha : Built true I0 a A) (hb : Built true I1 b B) :
    SameTree (mapImpl (interImpl I0 (unionImpl I0 I1)) (·.1)) (a, (a, b)) I0 a ∧
    SameTree (mapImpl (unionImpl I0 (interImpl I0 I1)) (·.1)) (a, (a, b)) (mapImpl I0 some) a := by
  refine ⟨?_, ?_⟩
  · refine same_of_map (.map _ (.inter rfl rfl ha (.union h1 h2 ha hb))) ha rfl rfl fun i => ?_
    simp only [interMap, unionMap]
    cases A i <;> cases B i <;> rfl
  · refine same_of_map (.map _ (.union rfl rfl ha (.inter h1 h2 ha hb))) (.map _ ha) rfl rfl fun i => ?_
    simp only [interMap, unionMap]
    cases A i <;> cases B i <;> rfl

example := C60_absorption (I0 := Dense.impl Nat 2) (I1 := Sparse.impl Nat 1 2) rfl rfl exD_built exU_built

/-- **C60**, distributivity (of the keys; the values of `a` occur twice on the right). -/
theorem C60_distributive (h1 : I0.N = I1.N) (h2 : I0.D = I1.D) (h3 : I1.N = I2.N) (h4 : I1.D = I2.D)
    (ha : Built true I0 a A) (hb : Built true I1 b B) (hc : Built true I2 c E) :
    SameTree (mapImpl (interImpl I0 (unionImpl I1 I2)) fun _ => ()) (a, (b, c))
      (mapImpl (unionImpl (interImpl I0 I1) (interImpl I0 I2)) fun _ => ()) ((a, b), (a, c)) ∧
    SameTree (mapImpl (unionImpl I0 (interImpl I1 I2)) fun _ => ()) (a, (b, c))
      (mapImpl (interImpl (unionImpl I0 I1) (unionImpl I0 I2)) fun _ => ()) ((a, b), (a, c)) := by
  have h13 := h1.trans h3
  have h24 := h2.trans h4
  refine ⟨?_, ?_⟩
  · refine same_of_map (.map _ (.inter h1 h2 ha (.union h3 h4 hb hc)))
      (.map _ (.union rfl rfl (.inter h1 h2 ha hb) (.inter h13 h24 ha hc))) rfl rfl fun i => ?_
    simp only [interMap, unionMap]
    cases A i <;> cases B i <;> cases E i <;> rfl
  · refine same_of_map (.map _ (.union h1 h2 ha (.inter h3 h4 hb hc)))
      (.map _ (.inter rfl rfl (.union h1 h2 ha hb) (.union h13 h24 ha hc))) rfl rfl fun i => ?_
    simp only [interMap, unionMap]
    cases A i <;> cases B i <;> cases E i <;> rfl

example := C60_distributive (I0 := Dense.impl Nat 2) (I1 := Sparse.impl Nat 1 2)
  (I2 := mapImpl (Dense.impl Nat 2) (· + 1)) rfl rfl rfl rfl exD_built exU_built
  (.map _ exD_built)

/-- **C60**, `map`: identity and composition. -/
theorem C60_map {ε ζ : Type} (f : δ0 → ε) (g : ε → ζ) (ha : Built x I0 a A) :
    SameTree (mapImpl I0 fun v => v) a I0 a ∧
    SameTree (mapImpl (mapImpl I0 f) g) a (mapImpl I0 fun v => g (f v)) a := by
  refine ⟨?_, ?_⟩
  · exact same_of_map (.map _ ha) ha rfl rfl fun i => by cases A i <;> rfl
  · exact same_of_map (.map _ (.map _ ha)) (.map _ ha) rfl rfl fun i => by cases A i <;> rfl

example := C60_map (fun e => e.1.getD 0 + e.2.getD 0) (fun v => v * 2) exUnion_built

end

/-- The values present in a pair. -/
def pairValues {δ : Type} (e : Option δ × Option δ) : List δ := e.1.toList ++ e.2.toList

/-- **C60**, multi-trees: `multi_union([a])`, `multi_intersection([a])` hold `a` with one-element lists;
over two trees they are `union` and `intersection` with the pair turned into a list. -/
theorem C60_multi {S C δ : Type} {I : Impl S C δ} {a b : S} (M : S → Nat → Option δ)
    (hcfg : ValidCfg I.N I.D) (hD : 2 ≤ I.D)
    (ha : Built true I a (M a)) (hb : Built true I b (M b)) :
    SameTree (multiUnionImpl I) [a] (mapImpl I fun v => [v]) a ∧
    SameTree (multiInterImpl I) [a] (mapImpl I fun v => [v]) a ∧
    SameTree (multiUnionImpl I) [a, b] (mapImpl (unionImpl I I) pairValues) (a, b) ∧
    SameTree (multiInterImpl I) [a, b] (mapImpl (interImpl I I) fun e => [e.1, e.2]) (a, b) := by
  refine ⟨?_, ?_, ?_, ?_⟩
  · refine same_of_map (.multiUnion M hcfg hD (by simp) (fun s hs => ?_)) (.map _ ha) rfl rfl fun i => ?_
    · obtain rfl : s = a := by simpa using hs
      exact ha
    · cases h : M a i <;> simp [multiUnionMap, h]
  · refine same_of_map (.multiInter M (by simp) (by simp) (fun s hs => ?_)) (.map _ ha) rfl rfl fun i => ?_
    · obtain rfl : s = a := by simpa using hs
      exact .weaken ha
    · cases h : M a i <;> simp [multiInterMap, h]
  · refine same_of_map (.multiUnion M hcfg hD (by simp) (fun s hs => ?_))
      (.map _ (.union rfl rfl ha hb)) rfl rfl fun i => ?_
    · rcases List.mem_cons.1 hs with rfl | hs
      · exact ha
      · obtain rfl : s = b := by simpa using hs
        exact hb
    · cases h : M a i <;> cases h' : M b i <;> simp [multiUnionMap, unionMap, h, h', pairValues]
  · refine same_of_map (.multiInter M (by simp) (by simp) (fun s hs => ?_))
      (.map _ (.inter rfl rfl ha hb)) rfl rfl fun i => ?_
    · rcases List.mem_cons.1 hs with rfl | hs
      · exact .weaken ha
      · obtain rfl : s = b := by simpa using hs
        exact .weaken hb
    · cases h : M a i <;> cases h' : M b i <;> simp [multiInterMap, interMap, h, h']

example := C60_multi (fun _ => exDM) ⟨by decide, by decide, by decide⟩ (by decide) exD_built exD_built

/-- **C60**, multi-trees: the keys do not depend on the order of the sources nor on repetitions. -/
theorem C60_multi_set {S C δ : Type} {I : Impl S C δ} {ss ss' : List S} (M : S → Nat → Option δ)
    (hss : ∀ s, s ∈ ss ↔ s ∈ ss') (hne : ss ≠ []) (hcap : ss.length ≤ 32) (hcap' : ss'.length ≤ 32)
    (h : ∀ s ∈ ss, Built true I s (M s)) :
    (ValidCfg I.N I.D → 2 ≤ I.D →
      SameTree (mapImpl (multiUnionImpl I) fun _ => ()) ss (mapImpl (multiUnionImpl I) fun _ => ()) ss') ∧
    SameTree (mapImpl (multiInterImpl I) fun _ => ()) ss (mapImpl (multiInterImpl I) fun _ => ()) ss' := by
  have hne' : ss' ≠ [] := by
    cases ss with
    | nil => exact absurd rfl hne
    | cons s _ => exact List.ne_nil_of_mem ((hss s).1 (by simp))
  have h' : ∀ s ∈ ss', Built true I s (M s) := fun s hs => h s ((hss s).2 hs)
  refine ⟨fun hcfg hD => ?_, ?_⟩
  · refine same_of_map (.map _ (.multiUnion M hcfg hD hcap h)) (.map _ (.multiUnion M hcfg hD hcap' h'))
      rfl rfl fun i => ?_
    have key : ∀ l : List S, (multiUnionMap (l.map M) i).map (fun _ => ()) =
        if ∃ s ∈ l, (M s i).isSome then some () else none := by
      intro l
      unfold multiUnionMap
      rw [List.filterMap_map]
      cases e : l.filterMap ((fun M => M i) ∘ M) with
      | nil =>
        rw [List.filterMap_eq_nil_iff] at e
        rw [if_neg]
        · rfl
        · rintro ⟨s, hs, hs'⟩
          have := e s hs
          simp only [Function.comp] at this
          rw [this] at hs'
          cases hs'
      | cons v vs =>
        have hv : v ∈ l.filterMap ((fun M => M i) ∘ M) := by rw [e]; simp
        obtain ⟨s, hs, hs'⟩ := List.mem_filterMap.1 hv
        simp only [Function.comp] at hs'
        rw [if_pos ⟨s, hs, by rw [hs']; rfl⟩]
        rfl
    rw [key, key]
    simp only [hss]
  · refine same_of_map (.map _ (.multiInter M hne hcap fun s hs => .weaken (h s hs)))
      (.map _ (.multiInter M hne' hcap' fun s hs => .weaken (h' s hs))) rfl rfl fun i => ?_
    have key : ∀ l : List S, (multiInterMap (l.map M) i).map (fun _ => ()) =
        if ∀ s ∈ l, (M s i).isSome = true then some () else none := by
      intro l
      unfold multiInterMap
      have : ((l.map M).all fun M => (M i).isSome) = true ↔ ∀ s ∈ l, (M s i).isSome = true := by
        simp [List.all_eq_true]
      by_cases hh : ∀ s ∈ l, (M s i).isSome = true
      · rw [if_pos (this.2 hh), if_pos hh]; rfl
      · rw [if_neg (fun g => hh (this.1 g)), if_neg hh]; rfl
    rw [key, key]
    simp only [hss]

example := C60_multi_set (ss := [exD, exD]) (ss' := [exD]) (fun _ => exDM) (by simp) (by simp) (by simp)
  (by simp) (fun s hs => exDs_built s (by simp at hs ⊢; exact hs))

/-- The items of an iteration run to the end. -/
def collected {S C δ : Type} (I : Impl S C δ) (s : S) (items : List (Nat × δ)) : Prop :=
  ∃ F, ∀ fuel, F ≤ fuel → ∀ n, width I.N ^ I.D ≤ n → ∃ os, I.iterRun s fuel n = .ok os ∧ itemsOf os = items

theorem collected_listing {x : Bool} {S C δ : Type} {I : Impl S C δ} {s : S} {M : Nat → Option δ}
    (h : Built x I s M) : collected I s (listing (width I.N ^ I.D) M) := by
  obtain ⟨F, hF⟩ := collect_spec (built_isTree h).1
  exact ⟨F, fun fuel hf n hn => hF fuel hf n hn⟩

theorem listing_count {δ0 δ1 : Type} (A : Nat → Option δ0) (B : Nat → Option δ1) (n : Nat) :
    (listing n (unionMap A B)).length + (listing n (interMap A B)).length =
      (listing n A).length + (listing n B).length := by
  unfold listing
  induction List.range n with
  | nil => rfl
  | cons i l ih =>
    simp only [List.filterMap_cons, unionMap, interMap] at ih ⊢
    cases A i <;> cases B i <;> simp only [Option.map_none, Option.map_some, List.length_cons] <;> omega

/-- **C60**, counting: iterating `union(a, b)` and `intersection(a, b)` yields together as many items as
iterating `a` and `b`. -/
theorem C60_count {S0 C0 δ0 S1 C1 δ1 : Type} {I0 : Impl S0 C0 δ0} {I1 : Impl S1 C1 δ1} {a : S0} {b : S1}
    {A : Nat → Option δ0} {B : Nat → Option δ1} (h1 : I0.N = I1.N) (h2 : I0.D = I1.D)
    (ha : Built true I0 a A) (hb : Built true I1 b B) :
    ∃ us is as bs, collected (unionImpl I0 I1) (a, b) us ∧ collected (interImpl I0 I1) (a, b) is ∧
      collected I0 a as ∧ collected I1 b bs ∧ us.length + is.length = as.length + bs.length := by
  refine ⟨_, _, _, _, collected_listing (.union h1 h2 ha hb), collected_listing (.inter h1 h2 ha hb),
    collected_listing ha, collected_listing hb, ?_⟩
  rw [← h1, ← h2]
  exact listing_count A B _

/-- 4 + 1 = 3 + 2. -/
example : ((listing 4096 (unionMap exDM exUM)).length, (listing 4096 (interMap exDM exUM)).length,
    (listing 4096 exDM).length, (listing 4096 exUM).length) = (4, 1, 3, 2) := by decide +kernel

/-- The hypotheses hold: a DenseTree and a SparseTree of the same shape, both with several keys. -/
example : ∃ (t : Dense.DT Nat) (u : Sparse.ST Nat) (M M' : Nat → Option Nat),
    Built true (Dense.impl Nat 2) t M ∧ Built true (Sparse.impl Nat 1 2) u M' ∧
    (Dense.impl Nat 2).N = (Sparse.impl Nat 1 2).N ∧ (Dense.impl Nat 2).D = (Sparse.impl Nat 1 2).D ∧
    unionMap M M' 5 = some (some 56, some 2) ∧ interMap M M' 64 = none ∧
    ValidCfg (Dense.impl Nat 2).N (Dense.impl Nat 2).D := by
  obtain ⟨t, M, h, e1, e2, -, e4⟩ := exDense
  obtain ⟨u, M', h', f1, f2, f3⟩ := exSparse
  refine ⟨t, u, M, M', h, h', rfl, rfl, ?_, ?_, ?_⟩
  · simp [unionMap, e1, f1]
  · simp [interMap, e2, f2]
  · refine ⟨?_, ?_, ?_⟩ <;> decide

end Hibit.Props
