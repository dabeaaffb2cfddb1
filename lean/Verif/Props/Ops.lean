import Verif.Props.Dense
import Verif.Ops.LawfulMU
/-!
# Properties C31 – C38, C41 (and C39, C40 for combinators)

Sources are trees obeying the contract: `IsTree I s M` / `IsTreeC I s M`
(`Verif/TreeOf.lean`), which `dense_isTree` and `sparse_isTree` establish for every container after
every history, and the theorems below for every combinator.
-/
namespace Hibit.Props
open Hibit

/-- What a user sees of a tree: `get` at every in-range index, and `iter()`: for every number `n` of
`next` calls, the content in ascending index order followed by `None`s. -/
def GetIterIs {S C δ : Type} (I : Impl S C δ) (s : S) (M : Nat → Option δ) : Prop :=
  (∀ i, i < width I.N ^ I.D → i < 2 ^ 64 - 1 → I.get s i = .ok (M i)) ∧
  ∃ F, ∀ fuel, F ≤ fuel → ∀ n, I.iterRun s fuel n =
    .ok ((List.range n).map (fun k => (listing (width I.N ^ I.D) M)[k]?))

theorem getIter {S C δ : Type} {I : Impl S C δ} {s : S} {M : Nat → Option δ} (h : IsTree I s M) :
    GetIterIs I s M :=
  ⟨fun i hi hi' => by rw [tree_get h, if_pos (by omega)], contract_iter h⟩

/-! ## Specifications: operations on maps -/

/-- Union: present iff present in at least one source; the pair of optional values. -/
def unionMap {δ0 δ1 : Type} (A : Nat → Option δ0) (B : Nat → Option δ1) :
    Nat → Option (Option δ0 × Option δ1) := fun i =>
  match A i, B i with
  | none, none => none
  | x, y => some (x, y)

/-- Intersection: present iff present in both; the pair of values. -/
def interMap {δ0 δ1 : Type} (A : Nat → Option δ0) (B : Nat → Option δ1) :
    Nat → Option (δ0 × δ1) := fun i =>
  match A i, B i with
  | some x, some y => some (x, y)
  | _, _ => none

/-- Multi-union: present iff present somewhere; the present values in source order. -/
def multiUnionMap {δ : Type} (Ms : List (Nat → Option δ)) : Nat → Option (List δ) := fun i =>
  match Ms.filterMap (fun M => M i) with
  | [] => none
  | vs => some vs

/-- Multi-intersection: present iff present everywhere; the values in source order. -/
def multiInterMap {δ : Type} (Ms : List (Nat → Option δ)) : Nat → Option (List δ) := fun i =>
  if Ms.all (fun M => (M i).isSome) then some (Ms.filterMap (fun M => M i)) else none

/-! ## Sources for the non-vacuity examples -/

/-- A supported history reaches a tree. -/
theorem dense_reached {α : Type} {D : Nat} {ops : List (Dense.Op α)} (h : DenseHistory D ops) :
    ∃ t, DenseReached D ops t := by
  obtain ⟨t0, t, e0, e, -⟩ := h.reach
  exact ⟨t, t0, _, e0, e⟩

/-- A DenseTree with the content of `exOps` (keys 5, 64, 200), usable as a source below. -/
theorem exTree : ∃ (t : Dense.DT Nat) (M : Nat → Option Nat), IsTreeC (Dense.impl Nat 2) t M ∧
    M 5 = some 56 ∧ M 64 = some 72 ∧ M 200 = some 202 ∧ M 4095 = none := by
  obtain ⟨t, ht⟩ := dense_reached exOps_history
  exact ⟨t, _, dense_isTree exOps_history ht, by decide, by decide, by decide, by decide⟩

/-! ## union, intersection, map -/

section
variable {S0 C0 δ0 S1 C1 δ1 : Type} {I0 : Impl S0 C0 δ0} {I1 : Impl S1 C1 δ1} {a : S0} {b : S1}
  {A : Nat → Option δ0} {B : Nat → Option δ1}

theorem union_isTree (hN : I0.N = I1.N) (hD : I0.D = I1.D) (ha : IsTreeC I0 a A)
    (hb : IsTreeC I1 b B) : IsTreeC (unionImpl I0 I1) (a, b) (unionMap A B) := by
  obtain ⟨T0, K0, L0, e0⟩ := ha
  obtain ⟨T1, K1, L1, e1⟩ := hb
  refine ⟨_, _, union_lawfulC hN hD L0 L1, fun i hi => ?_⟩
  have hi0 : i < width I0.N ^ I0.D := hi
  have f0 := e0 i hi0
  have f1 := e1 i (by rw [← hN, ← hD]; exact hi0)
  rw [← hN, ← hD] at f1
  show (unionSpec T0 T1).content (path (width I0.N) I0.D i) = _
  simp only [unionSpec, f0, f1, unionMap]
  cases A i <;> cases B i <;> rfl

/-- **C31**: `union(a, b)` of trees with equal depth and node width. -/
theorem contract_union (hN : I0.N = I1.N) (hD : I0.D = I1.D) (ha : IsTreeC I0 a A)
    (hb : IsTreeC I1 b B) : GetIterIs (unionImpl I0 I1) (a, b) (unionMap A B) :=
  getIter (union_isTree hN hD ha hb).isTree

theorem inter_isTree (hN : I0.N = I1.N) (hD : I0.D = I1.D) (ha : IsTree I0 a A)
    (hb : IsTree I1 b B) : IsTree (interImpl I0 I1) (a, b) (interMap A B) := by
  obtain ⟨T0, K0, L0, e0⟩ := ha
  obtain ⟨T1, K1, L1, e1⟩ := hb
  refine ⟨_, _, inter_lawful hN hD L0 L1, fun i hi => ?_⟩
  have hi0 : i < width I0.N ^ I0.D := hi
  have f0 := e0 i hi0
  have f1 := e1 i (by rw [← hN, ← hD]; exact hi0)
  rw [← hN, ← hD] at f1
  show (interSpec T0 T1).content (path (width I0.N) I0.D i) = _
  simp only [interSpec, f0, f1, interMap]
  cases A i <;> cases B i <;> rfl

theorem inter_isTreeC (hN : I0.N = I1.N) (hD : I0.D = I1.D) (ha : IsTreeC I0 a A)
    (hb : IsTreeC I1 b B) : IsTreeC (interImpl I0 I1) (a, b) (interMap A B) := by
  obtain ⟨T0, K0, L0, e0⟩ := ha
  obtain ⟨T1, K1, L1, e1⟩ := hb
  refine ⟨_, _, inter_lawfulC hN hD L0 L1, fun i hi => ?_⟩
  have hi0 : i < width I0.N ^ I0.D := hi
  have f0 := e0 i hi0
  have f1 := e1 i (by rw [← hN, ← hD]; exact hi0)
  rw [← hN, ← hD] at f1
  show (interSpec T0 T1).content (path (width I0.N) I0.D i) = _
  simp only [interSpec, f0, f1, interMap]
  cases A i <;> cases B i <;> rfl

/-- **C32**: `intersection(a, b)` of trees with equal depth and node width. -/
theorem contract_intersection (hN : I0.N = I1.N) (hD : I0.D = I1.D) (ha : IsTree I0 a A)
    (hb : IsTree I1 b B) : GetIterIs (interImpl I0 I1) (a, b) (interMap A B) :=
  getIter (inter_isTree hN hD ha hb)

theorem map_isTree {ε : Type} (f : δ0 → ε) (ha : IsTree I0 a A) :
    IsTree (mapImpl I0 f) a (fun i => (A i).map f) := by
  obtain ⟨T0, K0, L0, e0⟩ := ha
  refine ⟨_, _, map_lawful f L0, fun i hi => ?_⟩
  show ((T0.content (path (width I0.N) I0.D i))).map f = _
  rw [e0 i hi]

theorem map_isTreeC {ε : Type} (f : δ0 → ε) (ha : IsTreeC I0 a A) :
    IsTreeC (mapImpl I0 f) a (fun i => (A i).map f) := by
  obtain ⟨T0, K0, L0, e0⟩ := ha
  refine ⟨_, _, map_lawfulC f L0, fun i hi => ?_⟩
  show ((T0.content (path (width I0.N) I0.D i))).map f = _
  rw [e0 i hi]

/-- **C33**: `map(a, f)`. -/
theorem contract_map {ε : Type} (f : δ0 → ε) (ha : IsTree I0 a A) :
    GetIterIs (mapImpl I0 f) a (fun i => (A i).map f) := getIter (map_isTree f ha)

/-- **C36**: `multi_map_fold(init, m, f)` over a multi-tree whose data iterators yield the lists
given by `A`. -/
theorem contract_fold {S C δ β : Type} {I : Impl S C (List δ)} {s : S} {A : Nat → Option (List δ)}
    (init : β) (f : β → δ → β) (ha : IsTree I s A) :
    GetIterIs (foldImpl I init f) s (fun i => (A i).map (fun vs => vs.foldl f init)) := by
  rw [foldImpl_eq]
  exact contract_map _ ha

end

/-! ## multi_union, multi_intersection -/

section
variable {S C δ : Type} {I : Impl S C δ} {ss : List S}

theorem choose_specs {content : S → Nat → Option δ} {P : S → TreeSpec δ → CursorRel C → Prop}
    (h : ∀ s ∈ ss, ∃ T K, P s T K ∧
      ∀ i, i < width I.N ^ I.D → T.content (path (width I.N) I.D i) = content s i) :
    ∃ (T : S → TreeSpec δ) (K : S → CursorRel C), ∀ s ∈ ss, P s (T s) (K s) ∧
      ∀ i, i < width I.N ^ I.D → (T s).content (path (width I.N) I.D i) = content s i := by
  have h' : ∀ s, ∃ T K, s ∈ ss → P s T K ∧
      ∀ i, i < width I.N ^ I.D → T.content (path (width I.N) I.D i) = content s i := by
    intro s
    by_cases hs : s ∈ ss
    · obtain ⟨T, K, e⟩ := h s hs
      exact ⟨T, K, fun _ => e⟩
    · exact ⟨⟨fun _ _ => false, fun _ => none⟩, ⟨fun _ => True, fun _ _ => True, fun _ _ => True⟩,
        fun e => absurd e hs⟩
  obtain ⟨T, hT⟩ := Classical.skolem.1 h'
  obtain ⟨K, hK⟩ := Classical.skolem.1 hT
  exact ⟨T, K, hK⟩

theorem mapM_eq {δ : Type} (os : List (Option δ)) : os.mapM (fun o => o) =
    if os.all (·.isSome) then some (os.filterMap (fun o => o)) else none := by
  induction os with
  | nil => rfl
  | cons o os ih =>
    cases o with
    | none => simp
    | some v =>
      simp only [List.mapM_cons, ih, List.all_cons, Option.isSome_some, Bool.true_and,
        List.filterMap_cons]
      by_cases h : os.all (·.isSome) = true <;> simp [h]

theorem multiInter_isTree {content : S → Nat → Option δ} (hne : ss ≠ []) (hcap : ss.length ≤ 32)
    (h : ∀ s ∈ ss, IsTree I s (content s)) :
    IsTreeC (multiInterImpl I) ss (multiInterMap (ss.map content)) := by
  obtain ⟨T, K, hTK⟩ := choose_specs (I := I) (ss := ss) (content := content)
    (P := fun s T K => Lawful I s T K) h
  refine ⟨_, _, mi_lawfulC hne hcap (fun s hs => (hTK s hs).1), fun i hi => ?_⟩
  show ss.mapM (fun s => (T s).content (path (width I.N) I.D i)) = _
  have e : ∀ l : List S, (∀ s ∈ l, s ∈ ss) →
      l.mapM (fun s => (T s).content (path (width I.N) I.D i)) =
      (l.map (fun s => content s i)).mapM (fun o => o) := by
    intro l
    induction l with
    | nil => intro _; rfl
    | cons s l ih =>
      intro hs
      simp only [List.mapM_cons, List.map_cons, (hTK s (hs s (by simp))).2 i hi,
        ih (fun x hx => hs x (by simp [hx]))]
  rw [e ss (fun _ h => h), mapM_eq]
  unfold multiInterMap
  simp [List.filterMap_map, List.all_map, Function.comp_def]

/-- **C35**: `multi_intersection` of 1 to 32 trees. -/
theorem contract_multi_intersection {content : S → Nat → Option δ} (hne : ss ≠ [])
    (hcap : ss.length ≤ 32) (h : ∀ s ∈ ss, IsTree I s (content s)) :
    GetIterIs (multiInterImpl I) ss (multiInterMap (ss.map content)) :=
  getIter (multiInter_isTree hne hcap h).isTree

theorem multiUnion_isTree {content : S → Nat → Option δ} (hcfg : ValidCfg I.N I.D) (hD : 2 ≤ I.D)
    (hcap : ss.length ≤ 32) (h : ∀ s ∈ ss, IsTreeC I s (content s)) :
    IsTree (multiUnionImpl I) ss (multiUnionMap (ss.map content)) := by
  obtain ⟨T, K, hTK⟩ := choose_specs (I := I) (ss := ss) (content := content)
    (P := fun s T K => LawfulC I s T K) h
  refine ⟨_, _, mu_lawful hcfg hD hcap (fun s hs => (hTK s hs).1), fun i hi => ?_⟩
  show (muSpec T ss).content (path (width I.N) I.D i) = _
  have e : ss.filterMap (fun s => (T s).content (path (width I.N) I.D i)) =
      (ss.map content).filterMap (fun M => M i) := by
    rw [List.filterMap_map]
    have : ∀ l : List S, (∀ s ∈ l, s ∈ ss) →
        l.filterMap (fun s => (T s).content (path (width I.N) I.D i)) =
        l.filterMap ((fun M => M i) ∘ content) := by
      intro l
      induction l with
      | nil => intro _; rfl
      | cons s l ih =>
        intro hs
        simp only [List.filterMap_cons, (hTK s (hs s (by simp))).2 i hi, Function.comp_apply,
          ih (fun x hx => hs x (by simp [hx]))]
    exact this ss (fun _ h => h)
  simp only [muSpec, e, multiUnionMap]
  cases (ss.map content).filterMap (fun M => M i) <;> rfl

/-- **C34**: `multi_union` of 0 to 32 trees of depth at least 2. (Depth 1: see `C34_depth1`.) -/
theorem contract_multi_union {content : S → Nat → Option δ} (hcfg : ValidCfg I.N I.D) (hD : 2 ≤ I.D)
    (hcap : ss.length ≤ 32) (h : ∀ s ∈ ss, IsTreeC I s (content s)) :
    GetIterIs (multiUnionImpl I) ss (multiUnionMap (ss.map content)) :=
  getIter (multiUnion_isTree hcfg hD hcap h)

/-- `multi_union` of depth-1 trees: the cursor's `data` is an unfinished `todo!()`, every access
panics. -/
theorem C34_depth1 (hD : I.D = 1) (c : MUCursor S C) (i : Nat) :
    (multiUnionImpl I).curData c ss i = .error .panic ∧
    (multiUnionImpl I).curDataU c ss i = .error .panic := by
  have : muCurData I c i = .error .panic := by unfold muCurData; rw [if_pos hD]
  refine ⟨this, ?_⟩
  show (do let d ← muCurData I c i; unwrapU d) = _
  rw [this]; rfl

example : (Dense.impl Nat 1).D = 1 ∧
    (multiUnionImpl (Dense.impl Nat 1)).curData ⟨[], []⟩ ([] : List (Dense.DT Nat)) 3 = .error .panic :=
  ⟨rfl, (C34_depth1 rfl _ 3).1⟩

/-! ## C37: no trees -/

/-- **C37**, `multi_union` over no trees (depth ≥ 2) is the empty tree. Missing:
`multi_intersection`, where it is false (`C37_fails`). -/
theorem C37_multi_union_empty_partial (hcfg : ValidCfg I.N I.D) (hD : 2 ≤ I.D) :
    GetIterIs (multiUnionImpl I) ([] : List S) (fun _ => none) :=
  contract_multi_union (ss := []) (content := fun _ _ => none) hcfg hD (by simp) (by simp)

example : GetIterIs (multiUnionImpl (Dense.impl Nat 2)) [] (fun _ => none) :=
  C37_multi_union_empty_partial (Dense.validCfg (by decide) (by decide)) (by decide)

/-- **C37** is false for `multi_intersection` over no trees: `get` answers `Some` of an empty
sequence at every in-range index, while iteration yields nothing. -/
theorem C37_fails (hcfg : ValidCfg I.N I.D) :
    (∀ i, i < width I.N ^ I.D → i < 2 ^ 64 - 1 →
      (multiInterImpl I).get ([] : List S) i = .ok (some [])) ∧
    ∀ fuel, 1 ≤ fuel → (multiInterImpl I).iterRun ([] : List S) fuel 1 = .ok [none] := by
  constructor
  · intro i h1 h2
    unfold Impl.get indexFrom saturatingPow usizeMod
    have e : i < min (width I.N ^ I.D) (2 ^ 64 - 1) := by omega
    simp only [show (multiInterImpl I).N = I.N from rfl, show (multiInterImpl I).D = I.D from rfl,
      if_pos e, bind_ok, levelIndices_eq hcfg]
    rfl
  · intro fuel hf
    obtain ⟨f, rfl⟩ : ∃ f, fuel = f + 1 := ⟨fuel - 1, by omega⟩
    have hN : 0 < I.N := by rcases hcfg.words with h | h | h <;> omega
    have hD := hcfg.depth
    -- an iterator over an all-zero mask
    have hz : ∀ q : BitsIter, q.Wf I.N → q.rem = [] →
        ∃ q', q.next = .ok (none, q') ∧ q'.Wf I.N ∧ q'.rem = [] := by
      intro q h r
      obtain ⟨q', e, h', r'⟩ := next_spec h
      rw [r] at e r'
      exact ⟨q', e, h', r'⟩
    have hzero : (zeroMask I.N).ones = [] := by
      rw [List.eq_nil_iff_forall_not_mem]
      intro x hx
      rw [mem_ones] at hx
      have := (isZero_iff (zeroMask I.N)).1 (by
        unfold isZero zeroMask
        rw [List.all_eq_true]
        intro w hw
        rw [(List.mem_replicate.1 hw).2]; rfl) x
      rw [this] at hx; cases hx
    have hi0 : (intoBitsIter (zeroMask I.N)).Wf I.N ∧ (intoBitsIter (zeroMask I.N)).rem = [] := by
      have hl : (zeroMask I.N).length = I.N := by simp [zeroMask]
      refine ⟨?_, ?_⟩
      · have := intoBitsIter_wf (m := zeroMask I.N) (by omega)
        rw [hl] at this; exact this
      · rw [intoBitsIter_rem (by omega), hzero]
    -- all level iterators are exhausted
    let st0 : IterSt (MICursor C) := ⟨(List.replicate I.D (BitsIter.empty I.N)).set 0
      (intoBitsIter (zeroMask I.N)), List.replicate (I.D - 1) (usizeMod - 1),
      ⟨[], usizeMod - 1, zeroMask I.N⟩⟩
    have hnew : (multiInterImpl I).iterNew ([] : List S) = .ok st0 := by
      unfold Impl.iterNew
      show (do let cur ← (do let cs ← miCursors I.new ([] : List S) []
                             return (⟨cs, usizeMod - 1, zeroMask I.N⟩ : MICursor C))
               let r ← miSelectU I cur ([] : List S) 0 0
               if (List.replicate I.D (BitsIter.empty I.N)).length = 0 then Except.error Err.panic
               else _) = _
      simp only [miCursors, bind_ok, pure_eq_ok, miSelectU, miSelectAll]
      rw [if_neg (by simp; omega)]
      rfl
    have hAll : ∀ (l : List BitsIter), (∀ q ∈ l, q.Wf I.N ∧ q.rem = []) → ∀ n q,
        l[n]? = some q → ∃ q', q.next = .ok (none, q') ∧
          ∀ x ∈ l.set n q', x.Wf I.N ∧ x.rem = [] := by
      intro l hl n q hq
      obtain ⟨h1, h2⟩ := hl q (List.mem_of_getElem? hq)
      obtain ⟨q', e, h1', h2'⟩ := hz q h1 h2
      refine ⟨q', e, fun x hx => ?_⟩
      rcases List.mem_or_eq_of_mem_set hx with h | h
      · exact hl x h
      · rw [h]; exact ⟨h1', h2'⟩
    have h0 : ∀ q ∈ st0.iters, q.Wf I.N ∧ q.rem = [] := by
      intro q hq
      rcases List.mem_or_eq_of_mem_set hq with h | h
      · rw [(List.mem_replicate.1 h).2]; exact ⟨empty_wf hN, empty_rem hN⟩
      · rw [h]; exact hi0
    have hvisit : ∀ (l : List Nat) (st : IterSt (MICursor C)), st.iters.length = I.D →
        (∀ q ∈ st.iters, q.Wf I.N ∧ q.rem = []) → (∀ x ∈ l, x < I.D) →
        ∃ st', visitList ((multiInterImpl I).iterVisit ([] : List S)) l st = .ok (st', false) := by
      intro l
      induction l with
      | nil => intro st _ _ _; exact ⟨st, rfl⟩
      | cons x l ih =>
        intro st hlen hq hx
        have hxl : x < st.iters.length := by rw [hlen]; exact hx x (by simp)
        obtain ⟨q', e, hq'⟩ := hAll st.iters hq x _ (List.getElem?_eq_getElem hxl)
        obtain ⟨st', e'⟩ := ih ⟨st.iters.set x q', st.lidx, st.cur⟩ (by simp [hlen]) hq'
          (fun y hy => hx y (by simp [hy]))
        refine ⟨st', ?_⟩
        simp only [visitList, Impl.iterVisit, Hibit.getU_some (List.getElem?_eq_getElem hxl),
          bind_ok, e, setU_ok _ hxl, pure_eq_ok]
        exact e'
    have hlen0 : st0.iters.length = I.D := by simp [st0]
    obtain ⟨q', e, hq'⟩ := hAll st0.iters h0 (I.D - 1) _
      (List.getElem?_eq_getElem (by omega))
    obtain ⟨st', e'⟩ := hvisit (List.range (I.D - 1)).reverse
      ⟨st0.iters.set (I.D - 1) q', st0.lidx, st0.cur⟩ (by simp [hlen0]) hq'
      (fun x hx => by simp at hx; omega)
    have hrev : constForRev 0 ((multiInterImpl I).D - 1)
        ((multiInterImpl I).iterVisit ([] : List S))
        ⟨st0.iters.set (I.D - 1) q', st0.lidx, st0.cur⟩ = .ok (st', false) := by
      unfold constForRev
      rw [iterateAsRangeRev_zero]
      exact e'
    unfold Impl.iterRun
    simp only [hnew, bind_ok, Impl.iterTake, Impl.iterNext, Impl.iterLoop]
    rw [show st0.iters.length - 1 = I.D - 1 by rw [hlen0]]
    simp only [getP_some (List.getElem?_eq_getElem (show I.D - 1 < st0.iters.length by omega)),
      bind_ok, e, hrev, Bool.false_eq_true, if_false, pure_eq_ok]

example : (multiInterImpl (Dense.impl Nat 2)).get [] 77 = .ok (some []) ∧
    (multiInterImpl (Dense.impl Nat 2)).iterRun [] 1 1 = .ok [none] :=
  ⟨(C37_fails (Dense.validCfg (D := 2) (by decide) (by decide))).1 77 (by decide) (by decide),
   (C37_fails (Dense.validCfg (D := 2) (by decide) (by decide))).2 1 (by decide)⟩

/-! ## C38: more than 32 trees -/

theorem avCursors_full {new : S → R C} :
    ∀ (ss : List S) (_ : ∀ s ∈ ss, ∃ c, new s = .ok c) (acc : List (S × C)), acc.length ≤ 32 → 32 < acc.length + ss.length →
      avCursors new ss acc = .error .panic := by
  intro ss
  induction ss with
  | nil => intro _ acc h1 h2; simp at h2; omega
  | cons s ss ih =>
    intro hnew acc h1 h2
    obtain ⟨c, e⟩ := hnew s (by simp)
    simp only [avCursors, e, bind_ok, avPush]
    have hm : multiCap = 32 := rfl
    by_cases hl : acc.length < multiCap
    · rw [if_pos hl]
      simp only [bind_ok]
      exact ih (fun x hx => hnew x (by simp [hx])) _ (by simp; omega) (by simp at h2 ⊢; omega)
    · rw [if_neg hl]; rfl

theorem miCursors_full {new : S → R C} :
    ∀ (ss : List S) (_ : ∀ s ∈ ss, ∃ c, new s = .ok c) (acc : List C), acc.length ≤ 32 → 32 < acc.length + ss.length →
      miCursors new ss acc = .error .panic := by
  intro ss
  induction ss with
  | nil => intro _ acc h1 h2; simp at h2; omega
  | cons s ss ih =>
    intro hnew acc h1 h2
    obtain ⟨c, e⟩ := hnew s (by simp)
    simp only [miCursors, e, bind_ok, avPush]
    have hm : multiCap = 32 := rfl
    by_cases hl : acc.length < multiCap
    · rw [if_pos hl]
      simp only [bind_ok]
      exact ih (fun x hx => hnew x (by simp [hx])) _ (by simp; omega) (by simp at h2 ⊢; omega)
    · rw [if_neg hl]; rfl

theorem miGather_full {data : S → R (Option δ)} :
    ∀ (ss : List S) (_ : ∀ s ∈ ss, ∃ d, data s = .ok (some d)) (acc : List δ), acc.length ≤ 32 → 32 < acc.length + ss.length →
      miGather data ss acc = .error .panic ∧ muGather data ss acc = .error .panic := by
  intro ss
  induction ss with
  | nil => intro _ acc h1 h2; simp at h2; omega
  | cons s ss ih =>
    intro hnew acc h1 h2
    obtain ⟨d, e⟩ := hnew s (by simp)
    simp only [miGather, muGather, e, bind_ok, avPush]
    have hm : multiCap = 32 := rfl
    by_cases hl : acc.length < multiCap
    · rw [if_pos hl]
      simp only [bind_ok]
      exact ih (fun x hx => hnew x (by simp [hx])) _ (by simp; omega) (by simp at h2 ⊢; omega)
    · rw [if_neg hl]; exact ⟨rfl, rfl⟩

/-- **C38** is false: with more than 32 trees, `iter()` of a multi-union or multi-intersection
always panics, and `get` panics at every index present in all of them. (For up to 32 trees see C34,
C35.) -/
theorem C38_fails (hnew : ∀ s ∈ ss, ∃ c, I.new s = .ok c) (hss : 32 < ss.length) (fuel n : Nat) :
    (multiUnionImpl I).iterRun ss fuel n = .error .panic ∧
    (multiInterImpl I).iterRun ss fuel n = .error .panic ∧
    ∀ index li, (∀ s ∈ ss, ∃ d, I.data s index li = .ok (some d)) →
      (multiUnionImpl I).data ss index li = .error .panic ∧
      (multiInterImpl I).data ss index li = .error .panic := by
  refine ⟨?_, ?_, ?_⟩
  · unfold Impl.iterRun Impl.iterNew
    show (do let st ← (do let cur ← (do let cs ← avCursors I.new ss []
                                        return (⟨cs, _⟩ : MUCursor S C))
                          _) ; _) = _
    rw [avCursors_full ss hnew [] (by simp) (by simpa using hss)]
    rfl
  · unfold Impl.iterRun Impl.iterNew
    show (do let st ← (do let cur ← (do let cs ← miCursors I.new ss []
                                        return (⟨cs, _, _⟩ : MICursor C))
                          _) ; _) = _
    rw [miCursors_full ss hnew [] (by simp) (by simpa using hss)]
    rfl
  · intro index li hd
    obtain ⟨e1, e2⟩ := miGather_full ss hd [] (by simp) (by simpa using hss)
    refine ⟨?_, e1⟩
    show (do let ds ← muGather (fun s => I.data s index li) ss []
             if ds.isEmpty then return none else return some ds) = _
    rw [e2]; rfl

end

/-! ## Non-vacuity -/

/-- The hypotheses are met by DenseTrees with content (SparseTrees and compositions:
`Props/Trees.lean`). -/
example : ∃ (t : Dense.DT Nat) (M : Nat → Option Nat),
    GetIterIs (unionImpl (Dense.impl Nat 2) (Dense.impl Nat 2)) (t, t) (unionMap M M) ∧
    GetIterIs (interImpl (Dense.impl Nat 2) (Dense.impl Nat 2)) (t, t) (interMap M M) ∧
    GetIterIs (multiUnionImpl (Dense.impl Nat 2)) [t, t] (multiUnionMap [M, M]) ∧
    GetIterIs (multiInterImpl (Dense.impl Nat 2)) [t, t] (multiInterMap [M, M]) ∧
    unionMap M M 5 = some (some 56, some 56) ∧ interMap M M 64 = some (72, 72) ∧
    multiUnionMap [M, M] 200 = some [202, 202] ∧ multiInterMap [M, M] 4095 = none := by
  obtain ⟨t, M, h, e1, e2, e3, e4⟩ := exTree
  refine ⟨t, M, contract_union rfl rfl h h, contract_intersection rfl rfl h.isTree h.isTree,
    contract_multi_union (ss := [t, t]) (content := fun _ => M) (Dense.validCfg (by decide) (by decide))
      (by decide) (by simp) (fun s hs => by
        simp only [List.mem_cons, List.not_mem_nil, or_false, or_self] at hs; rw [hs]; exact h),
    contract_multi_intersection (ss := [t, t]) (content := fun _ => M) (by simp) (by simp)
      (fun s hs => by
        simp only [List.mem_cons, List.not_mem_nil, or_false, or_self] at hs
        rw [hs]; exact h.isTree), ?_, ?_, ?_, ?_⟩
  · simp [unionMap, e1]
  · simp [interMap, e2]
  · simp [multiUnionMap, e3]
  · simp [multiInterMap, e4]

/-- The hypotheses of C38_fails are met: 33 times the same DenseTree, at a present index. -/
example : ∃ t : Dense.DT Nat,
    (multiUnionImpl (Dense.impl Nat 2)).iterRun (List.replicate 33 t) 100 1 = .error .panic := by
  obtain ⟨t, M, h, -⟩ := exTree
  obtain ⟨T, K, L, -⟩ := h
  refine ⟨t, (C38_fails (fun s hs => ?_) (by simp) 100 1).1⟩
  rw [(List.mem_replicate.1 hs).2]
  obtain ⟨c, e, -⟩ := L.new_ok
  exact ⟨c, e⟩

/-! ## C39 is false for `multi_union` -/

/-- One DenseTree holding only key 0. -/
def ex1Ops : List (Dense.Op Nat) := [.insert 0 7]
/-- One DenseTree holding only key 1. -/
def ex2Ops : List (Dense.Op Nat) := [.insert 1 8]

/-- **C39** is false for `multi_union`: positioned by checked selects at the terminal node of a
`multi_union` of one tree, the cursor's `data` answers `Some` of an empty sequence at the absent
index 5, where `get` answers `None`. -/
theorem C39_fails : ∃ t, DenseReached 2 ex1Ops t ∧
    (multiUnionImpl (Dense.impl Nat 2)).get [t] 5 = .ok none ∧
    ∃ c0 masks c, (multiUnionImpl (Dense.impl Nat 2)).new [t] = .ok c0 ∧
      runMoves (multiUnionImpl (Dense.impl Nat 2)) [t] c0 [⟨true, 0, 0⟩, ⟨true, 1, 0⟩] =
        .ok (masks, c) ∧
      (multiUnionImpl (Dense.impl Nat 2)).curData c [t] 5 = .ok (some []) := by
  refine ⟨_, ⟨_, _, rfl, rfl⟩, rfl, _, _, _, rfl, rfl, rfl⟩

/-- Hence a `multi_union` nested in a `union` iterates a wrong value: iteration reports
`(Some([]), Some(8))` at index 1, where `get` answers `(None, Some(8))`. -/
theorem C39_fails_nested : ∃ t u, DenseReached 2 ex1Ops t ∧ DenseReached 2 ex2Ops u ∧
    (unionImpl (multiUnionImpl (Dense.impl Nat 2)) (Dense.impl Nat 2)).get ([t], u) 1 =
      .ok (some (none, some 8)) ∧
    (unionImpl (multiUnionImpl (Dense.impl Nat 2)) (Dense.impl Nat 2)).iterRun ([t], u) 9 3 =
      .ok [some (0, some [7], none), some (1, some [], some 8), none] := by
  refine ⟨_, _, ⟨_, _, rfl, rfl⟩, ⟨_, _, rfl, rfl⟩, rfl, rfl⟩

end Hibit.Props
