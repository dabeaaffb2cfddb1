import Verif.IterTrace
import Verif.Props.Trees
/-!
# C57, C58: which nodes iteration visits, and in what order

`I.iterTrace s fuel n`: `iter()` followed by `n` calls of `next()`, with the `select_level_node*` calls
each of them made on the tree's cursor.
-/
namespace Hibit.Props

-- instance search only (the examples compare nested tuples)
set_option synthInstance.maxSize 4000

open Hibit

section
variable {x y : Bool} {S C δ : Type} {I : Impl S C δ} {s : S} {M : Nat → Option δ}

/-- **C57**, the exact sequence: in a tree with exact hierarchy, `iter()` selects the root, and each
`next()` that returns an element selects exactly the nodes on the element's path below the deepest
node this path shares with that of the previously returned element. A `next()` that returns `None`
selects nothing. -/
theorem C57_selects (h : Built x I s M) (hex : I.exact = true) {fuel : Nat} (hf : I.D ≤ fuel) (n : Nat) :
    I.iterTrace s fuel n = .ok ([(0, 0)],
      traceSpec (width I.N) I.D [] (listing (width I.N ^ I.D) M) n) := by
  obtain ⟨T, K, L, e⟩ := (built_isTree h).1
  rw [iterTrace_spec L hex hf, entries_eq e]

/-- On `exD` (keys 5, 64, 200): the tree's run and the specification's. -/
example : Built true (Dense.impl Nat 2) exD exDM ∧
    (Dense.impl Nat 2).iterTrace exD 2 4 = .ok ([(0, 0)], [(some (5, 56), [(1, 0)]),
      (some (64, 72), [(1, 1)]), (some (200, 202), [(1, 3)]), (none, [])]) ∧
    traceSpec 64 2 [] (listing 4096 exDM) 4 = [(some (5, 56), [(1, 0)]), (some (64, 72), [(1, 1)]),
      (some (200, 202), [(1, 3)]), (none, [])] :=
  ⟨exD_built, by decide +kernel, by decide +kernel⟩

theorem callsFrom_length (D c : Nat) (q : List Nat) : (callsFrom D c q).length = D - 1 - c := by
  simp [callsFrom]

theorem traceSpec_bound {W D : Nat} : ∀ (n : Nat) (prev : List Nat) (E : List (Nat × δ)) (k : Nat) r,
    (traceSpec W D prev E n)[k]? = some r → r.2.length ≤ D - 1 ∧ (r.1 = none → r.2 = []) := by
  intro n
  induction n with
  | zero => intro prev E k r h; simp [traceSpec] at h
  | succ n ih =>
    intro prev E k r h
    cases E with
    | nil =>
      simp only [traceSpec] at h
      cases k with
      | zero => simp at h; subst h; simp
      | succ k => simp at h; exact ih _ _ _ _ h
    | cons e E =>
      simp only [traceSpec] at h
      cases k with
      | zero =>
        simp at h; subst h
        refine ⟨?_, fun h => by cases h⟩
        simp only [stepCalls, callsFrom_length]; omega
      | succ k => simp at h; exact ih _ _ _ _ h

/-- **C57**, cost: in a tree with exact hierarchy no `next()` makes more than depth − 1 select calls,
however sparse the tree is and however many keys lie between two elements; one that returns `None`
makes none. -/
theorem C57_cost (h : Built x I s M) (hex : I.exact = true) {fuel : Nat} (hf : I.D ≤ fuel) (n : Nat) :
    ∃ res, I.iterTrace s fuel n = .ok ([(0, 0)], res) ∧ res.length = n ∧
      ∀ r ∈ res, r.2.length ≤ I.D - 1 ∧ (r.1 = none → r.2 = []) := by
  refine ⟨_, C57_selects h hex hf n, ?_, ?_⟩
  · generalize listing (width I.N ^ I.D) M = E
    generalize ([] : List Nat) = prev
    induction n generalizing E prev with
    | zero => rfl
    | succ n ih => cases E <;> simp [traceSpec, ih]
  · intro r hr
    obtain ⟨k, hk⟩ := List.getElem?_of_mem hr
    exact traceSpec_bound n _ _ k r hk

example : ∃ res, exUnion.iterTrace (exD, exU) 2 7 = .ok ([(0, 0)], res) ∧ res.length = 7 ∧
    ∀ r ∈ res, r.2.length ≤ 2 - 1 ∧ (r.1 = none → r.2 = []) := C57_cost exUnion_built rfl (Nat.le_refl 2) 7

/-- **C57**, the search loop: in a tree with exact hierarchy each `next()` goes at most `depth` times
round its search loop (`loop` in iter.rs:92): a bound of `depth` rounds on the loop changes nothing. -/
theorem C57_rounds (h : Built x I s M) (hex : I.exact = true) {fuel : Nat} (hf : I.D ≤ fuel) (n : Nat) :
    I.iterRun s fuel n = .ok ((List.range n).map (fun k => (listing (width I.N ^ I.D) M)[k]?)) := by
  obtain ⟨F, hF⟩ := C27_iter h
  rw [← hF (max F I.D) (Nat.le_max_left _ _) n, run_erase, run_erase, C57_selects h hex hf,
    C57_selects h hex (Nat.le_max_right F I.D)]

/-- Two rounds are enough for depth 2: -/
example : exUnion.iterRun (exD, exU) 2 5 = .ok [some (5, (some 56, some 2)), some (64, (some 72, none)),
    some (200, (some 202, none)), some (4095, (none, some 3)), none] := by decide +kernel

/-- Recording does not interfere, for any implementation of the traits: the results of the recorded
run are those of the plain run, errors included. -/
theorem C57_recording (I : Impl S C δ) (s : S) (fuel n : Nat) :
    I.iterRun s fuel n = (I.iterTrace s fuel n).map (fun r => r.2.map Prod.fst) := run_erase fuel n

example : exUnion.iterRun (exD, exU) 1 5 =
    (exUnion.iterTrace (exD, exU) 1 5).map (fun r => r.2.map Prod.fst) := C57_recording _ _ _ _

/-! ## Order and completeness -/

/-- Every node on the way down the path `q` is marked in its parent's mask. -/
def Marked (W : Nat) (B : List Nat → Nat → Bool) (q : List Nat) : Prop :=
  ∀ u x v, q = u ++ x :: v → x < W ∧ B u x = true

theorem mem_nodesUnder {W : Nat} {B : List Nat → Nat → Bool} : ∀ (d : Nat) (p q : List Nat),
    q ∈ nodesUnder W B d p ↔ ∃ r, q = p ++ r ∧ r.length < d ∧
      ∀ u x v, r = u ++ x :: v → x < W ∧ B (p ++ u) x = true := by
  intro d
  induction d with
  | zero => intro p q; simp [nodesUnder]
  | succ d ih =>
    intro p q
    simp only [nodesUnder, List.mem_cons, List.mem_flatMap, List.mem_filter, List.mem_range, ih]
    constructor
    · rintro (rfl | ⟨x, ⟨hx, hb⟩, r, rfl, hr, hm⟩)
      · refine ⟨[], by simp, by simp, ?_⟩
        intro u x v h; simp at h
      · refine ⟨x :: r, by simp, by simp; omega, ?_⟩
        intro u z v h
        cases u with
        | nil => simp at h; obtain ⟨rfl, rfl⟩ := h; exact ⟨hx, by simpa using hb⟩
        | cons w u =>
          simp at h
          obtain ⟨rfl, rfl⟩ := h
          obtain ⟨h1, h2⟩ := hm u z v rfl
          exact ⟨h1, by simpa [List.append_assoc] using h2⟩
    · rintro ⟨r, rfl, hr, hm⟩
      cases r with
      | nil => left; simp
      | cons x r =>
        right
        obtain ⟨h1, h2⟩ := hm [] x r rfl
        refine ⟨x, ⟨h1, by simpa using h2⟩, r, by simp, by simp at hr; omega, ?_⟩
        intro u z v h
        obtain ⟨h1, h2⟩ := hm (x :: u) z v (by simp [h])
        exact ⟨h1, by simpa [List.append_assoc] using h2⟩

/-- The nodes are listed in strictly ascending lexicographic order: depth first, left to right, each
once. -/
theorem nodesUnder_pairwise {W : Nat} {B : List Nat → Nat → Bool} : ∀ (d : Nat) (p : List Nat),
    (nodesUnder W B d p).Pairwise (· < ·) := by
  intro d
  induction d with
  | zero => intro p; simp [nodesUnder]
  | succ d ih =>
    intro p
    have app : ∀ (p : List Nat) {a b : List Nat}, a < b → p ++ a < p ++ b := by
      intro p a b h
      induction p with
      | nil => exact h
      | cons x p ih => exact List.Lex.cons ih
    rw [nodesUnder, List.pairwise_cons]
    constructor
    · intro q hq
      simp only [List.mem_flatMap, mem_nodesUnder] at hq
      obtain ⟨x, -, r, rfl, -⟩ := hq
      have h0 : p ++ [] < p ++ ([x] ++ r) := app p List.Lex.nil
      simpa using h0
    · rw [List.pairwise_flatMap]
      refine ⟨fun x _ => ih _, ?_⟩
      have hr : ((List.range W).filter (fun x => B p x)).Pairwise (· < ·) :=
        List.Pairwise.filter _ List.pairwise_lt_range
      refine hr.imp ?_
      intro a b hab q hq q' hq'
      rw [mem_nodesUnder] at hq hq'
      obtain ⟨r, rfl, -⟩ := hq
      obtain ⟨r', rfl, -⟩ := hq'
      have h0 : p ++ (a :: r) < p ++ (b :: r') := app p (List.Lex.rel hab)
      simpa using h0

/-- **C58**: for every tree expression, exact hierarchy or not, there are mask bits `B` as specified for
its content, such that iteration makes its select calls on the nodes reached through set bits only:
each at most once, in strictly ascending (depth-first) order, and each of them once `next` has returned
`None`. The call for the node at path `q` is `select_level_node_unchecked(q.length, last coordinate)`. -/
theorem C58_order (h : Built x I s M) :
    ∃ B, MaskSpec (width I.N) I.D I.exact M B ∧ ∃ F, ∀ fuel, F ≤ fuel → ∀ n,
      ∃ res, ∃ ns : List (List Nat), I.iterTrace s fuel n = .ok ([(0, 0)], res) ∧
        res.map Prod.fst = (List.range n).map (fun k => (listing (width I.N ^ I.D) M)[k]?) ∧
        res.flatMap Prod.snd = ns.map (fun q => (q.length, q.getLastD 0)) ∧
        ns.Pairwise (· < ·) ∧
        (∀ q ∈ ns, q ≠ [] ∧ q.length < I.D ∧ Marked (width I.N) B q) ∧
        ((listing (width I.N ^ I.D) M).length < n →
          ∀ q, q ≠ [] → q.length < I.D → Marked (width I.N) B q → q ∈ ns) := by
  obtain ⟨T, K, L, e⟩ := (built_isTree h).1
  refine ⟨T.bits, maskSpec L.wf e, ?_⟩
  obtain ⟨F, hF⟩ := iterTrace_order L
  refine ⟨F, fun fuel hf n => ?_⟩
  obtain ⟨res, ns, ns', c1, c2, c3, c4, c5⟩ := hF fuel hf n
  rw [entries_eq e] at c2 c5
  have hp := nodesUnder_pairwise (W := width I.N) (B := T.bits) I.D []
  rw [c3, List.cons_append, List.pairwise_cons, List.pairwise_append] at hp
  refine ⟨res, ns, c1, c2, c4, hp.2.1, ?_, ?_⟩
  · intro q hq
    have h1 : q ∈ nodesUnder (width I.N) T.bits I.D [] := by rw [c3]; simp [hq]
    rw [mem_nodesUnder] at h1
    obtain ⟨r, rfl, h2, h3⟩ := h1
    refine ⟨?_, by simpa using h2, fun u x v hv => h3 u x v (by simpa using hv)⟩
    intro h0
    have := hp.1 _ (List.mem_append_left ns' hq)
    rw [h0] at this
    cases this
  · intro hn q h0 h1 h2
    have h3 : q ∈ nodesUnder (width I.N) T.bits I.D [] := by
      rw [mem_nodesUnder]
      exact ⟨q, by simp, h1, fun u x v hv => h2 u x v hv⟩
    rw [c3, c5 hn] at h3
    simp [h0] at h3
    exact h3

/-- On an intersection, which has no exact hierarchy: node 1 of `exD` is met only in `exD`, node 0 in both. -/
example : Built true (interImpl (Dense.impl Nat 2) (Sparse.impl Nat 1 2)) (exD, exU) (interMap exDM exUM) ∧
    (interImpl (Dense.impl Nat 2) (Sparse.impl Nat 1 2)).iterTrace (exD, exU) 9 2 =
      .ok ([(0, 0)], [(some (5, (56, 2)), [(1, 0)]), (none, [])]) :=
  ⟨.inter rfl rfl exD_built exU_built, by decide +kernel⟩

theorem marked_exact {W D : Nat} {B : List Nat → Nat → Bool} (hB : MaskSpec W D true M B)
    {q : List Nat} (h0 : q ≠ []) (h1 : q.length < D) : Marked W B q ↔ Below W D M q := by
  obtain ⟨p, z, rfl⟩ : ∃ p z, q = p ++ [z] := ⟨q.dropLast, q.getLast h0, (List.dropLast_concat_getLast h0).symm⟩
  constructor
  · intro h
    refine hB.exact rfl p z ?_ (by simp at h1; omega) (h p z [] rfl).2
    intro w hw
    obtain ⟨a, b, rfl⟩ := List.append_of_mem hw
    exact (h a w (b ++ [z]) (by simp)).1
  · rintro ⟨r, h2, h3, h4⟩ u w v hv
    refine ⟨h2 w (by rw [hv]; simp), ?_⟩
    refine hB.below u w ?_ ⟨v ++ r, ?_, ?_, ?_⟩
    · have := congrArg List.length hv; simp at this h1; omega
    all_goals rw [show u ++ [w] ++ (v ++ r) = p ++ [z] ++ r by rw [hv]; simp]
    · exact h2
    · exact h3
    · exact h4

/-- **C58**, exact hierarchy: iteration to the end visits every node (below the root) under which an
element is stored, each exactly once, in ascending depth-first order, and no other. -/
theorem C58_exact (h : Built x I s M) (hex : I.exact = true) {fuel : Nat} (hf : I.D ≤ fuel) {n : Nat}
    (hn : (listing (width I.N ^ I.D) M).length < n) :
    ∃ res, ∃ ns : List (List Nat), I.iterTrace s fuel n = .ok ([(0, 0)], res) ∧
      res.flatMap Prod.snd = ns.map (fun q => (q.length, q.getLastD 0)) ∧ ns.Pairwise (· < ·) ∧
      ∀ q, q ∈ ns ↔ q ≠ [] ∧ q.length < I.D ∧ Below (width I.N) I.D M q := by
  obtain ⟨B, hB, F, hF⟩ := C58_order h
  obtain ⟨res, ns, c1, -, c3, c4, c5, c6⟩ := hF (max F I.D) (Nat.le_max_left _ _) n
  rw [C57_selects h hex (Nat.le_max_right F I.D), ← C57_selects h hex hf] at c1
  rw [hex] at hB
  refine ⟨res, ns, c1, c3, c4, fun q => ⟨fun hq => ?_, fun ⟨h0, h1, h2⟩ => ?_⟩⟩
  · obtain ⟨h0, h1, h2⟩ := c5 q hq
    exact ⟨h0, h1, (marked_exact hB h0 h1).1 h2⟩
  · exact c6 hn q h0 h1 ((marked_exact hB h0 h1).2 h2)
end

example : Built true exUnion (exD, exU) (unionMap exDM exUM) ∧ exUnion.exact = true ∧
    (listing 4096 (unionMap exDM exUM)).length < 5 ∧
    exUnion.iterTrace (exD, exU) 2 5 = .ok ([(0, 0)], [(some (5, (some 56, some 2)), [(1, 0)]),
      (some (64, (some 72, none)), [(1, 1)]), (some (200, (some 202, none)), [(1, 3)]),
      (some (4095, (none, some 3)), [(1, 63)]), (none, [])]) :=
  ⟨exUnion_built, rfl, by decide +kernel, by decide +kernel⟩

section
variable {x y : Bool} {S0 C0 δ0 S1 C1 δ1 : Type} {I0 : Impl S0 C0 δ0} {I1 : Impl S1 C1 δ1} {a : S0}
  {b : S1} {A : Nat → Option δ0} {B : Nat → Option δ1}

/-- **C58**, intersections skip: iterating `intersection(a, b)` of two trees with exact hierarchy visits
a node (below the root) only if both `a` and `b` store something under it; to the end, every such node,
each exactly once. -/
theorem C58_intersection (hN : I0.N = I1.N) (hD : I0.D = I1.D) (ha : Built x I0 a A) (hb : Built y I1 b B)
    (hex0 : I0.exact = true) (hex1 : I1.exact = true) :
    ∃ F, ∀ fuel, F ≤ fuel → ∀ n,
      ∃ res, ∃ ns : List (List Nat), (interImpl I0 I1).iterTrace (a, b) fuel n = .ok ([(0, 0)], res) ∧
        res.map Prod.fst = (List.range n).map
          (fun k => (listing (width I0.N ^ I0.D) (interMap A B))[k]?) ∧
        res.flatMap Prod.snd = ns.map (fun q => (q.length, q.getLastD 0)) ∧
        ns.Pairwise (· < ·) ∧
        (∀ q ∈ ns, q ≠ [] ∧ q.length < I0.D ∧ Below (width I0.N) I0.D A q ∧
          Below (width I0.N) I0.D B q) ∧
        ((listing (width I0.N ^ I0.D) (interMap A B)).length < n →
          ∀ q, q ≠ [] → q.length < I0.D → Below (width I0.N) I0.D A q →
            Below (width I0.N) I0.D B q → q ∈ ns) := by
  obtain ⟨T0, K0, L0, e0⟩ := (built_isTree ha).1
  obtain ⟨T1, K1, L1, e1⟩ := (built_isTree hb).1
  have hm0 := maskSpec L0.wf e0
  have hm1 := maskSpec L1.wf e1
  rw [hex0] at hm0
  rw [hex1, ← hN, ← hD] at hm1
  have L := inter_lawful hN hD L0 L1
  have hent : entries (width I0.N) I0.D (interSpec T0 T1).content =
      listing (width I0.N ^ I0.D) (interMap A B) := by
    refine entries_eq (I := interImpl I0 I1) fun i hi => ?_
    have hi0 : i < width I0.N ^ I0.D := hi
    have f0 := e0 i hi0
    have f1 := e1 i (by rw [← hN, ← hD]; exact hi0)
    rw [← hN, ← hD] at f1
    show (interSpec T0 T1).content (path (width I0.N) I0.D i) = _
    simp only [interSpec, f0, f1, interMap]
    cases A i <;> cases B i <;> rfl
  have hmark : ∀ q, Marked (width I0.N) (interSpec T0 T1).bits q ↔
      Marked (width I0.N) T0.bits q ∧ Marked (width I0.N) T1.bits q := by
    intro q
    constructor
    · intro h
      constructor <;> intro u z v hv <;> obtain ⟨h1, h2⟩ := h u z v hv <;>
        simp only [interSpec, Bool.and_eq_true] at h2
      · exact ⟨h1, h2.1⟩
      · exact ⟨h1, h2.2⟩
    · rintro ⟨h1, h2⟩ u z v hv
      exact ⟨(h1 u z v hv).1, by simp [interSpec, (h1 u z v hv).2, (h2 u z v hv).2]⟩
  obtain ⟨F, hF⟩ := iterTrace_order L
  refine ⟨F, fun fuel hf n => ?_⟩
  obtain ⟨res, ns, ns', c1, c2, c3, c4, c5⟩ := hF fuel hf n
  change res.map Prod.fst = (List.range n).map
    (fun k => (entries (width I0.N) I0.D (interSpec T0 T1).content)[k]?) at c2
  change (entries (width I0.N) I0.D (interSpec T0 T1).content).length < n → ns' = [] at c5
  change nodesUnder (width I0.N) (interSpec T0 T1).bits I0.D [] = [] :: ns ++ ns' at c3
  rw [hent] at c2 c5
  have hp := nodesUnder_pairwise (W := width I0.N) (B := (interSpec T0 T1).bits) I0.D []
  rw [c3, List.cons_append, List.pairwise_cons, List.pairwise_append] at hp
  refine ⟨res, ns, c1, c2, c4, hp.2.1, ?_, ?_⟩
  · intro q hq
    have h1 : q ∈ nodesUnder (width I0.N) (interSpec T0 T1).bits I0.D [] := by rw [c3]; simp [hq]
    rw [mem_nodesUnder] at h1
    obtain ⟨r, hr, h2, h3⟩ := h1
    have hr' : q = r := by simpa using hr
    subst hr'
    have h0 : q ≠ [] := by
      intro h0
      have := hp.1 _ (List.mem_append_left ns' hq)
      rw [h0] at this
      cases this
    have hm : Marked (width I0.N) (interSpec T0 T1).bits q :=
      fun u x v hv => h3 u x v hv
    rw [hmark] at hm
    have hl : q.length < I0.D := h2
    exact ⟨h0, hl, (marked_exact hm0 h0 hl).1 hm.1, (marked_exact hm1 h0 hl).1 hm.2⟩
  · intro hn q h0 h1 h2 h3
    have hm : Marked (width I0.N) (interSpec T0 T1).bits q :=
      (hmark q).2 ⟨(marked_exact hm0 h0 h1).2 h2, (marked_exact hm1 h0 h1).2 h3⟩
    have h4 : q ∈ nodesUnder (width I0.N) (interSpec T0 T1).bits I0.D [] := by
      rw [mem_nodesUnder]
      exact ⟨q, by simp, h1, fun u x v hv => hm u x v hv⟩
    rw [c3, c5 hn] at h4
    simp [h0] at h4
    exact h4
end

/-- The recorded iteration of a depth-3 tree of width 64 with keys 5, 6, 70 and 200000. -/
example : traceSpec 64 3 [] [(5, 'a'), (6, 'b'), (70, 'c'), (200000, 'd')] 6 =
    [(some (5, 'a'), [(1, 0), (2, 0)]), (some (6, 'b'), []), (some (70, 'c'), [(2, 1)]),
     (some (200000, 'd'), [(1, 48), (2, 53)]), (none, []), (none, [])] := by decide

/-- The hypotheses are met: a `DenseTree` and a `SparseTree` with shared and separate keys. -/
theorem exTrace : ∃ (t : Dense.DT Nat) (u : Sparse.ST Nat) (M M' : Nat → Option Nat),
    Built true (Dense.impl Nat 2) t M ∧ Built true (Sparse.impl Nat 1 2) u M' ∧
    (Dense.impl Nat 2).exact = true ∧ (Sparse.impl Nat 1 2).exact = true ∧
    M 5 = some 56 ∧ M' 5 = some 2 ∧ M 64 = some 72 ∧ M' 64 = none := by
  obtain ⟨t, M, h, e1, e2, -⟩ := exDense
  obtain ⟨u, M', h', f1, f2, -⟩ := exSparse
  exact ⟨t, u, M, M', h, h', rfl, rfl, e1, f1, e2, f2⟩

end Hibit.Props
