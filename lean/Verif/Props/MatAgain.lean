import Verif.Dense.MatRec2
import Verif.Props.Wrong
import Verif.Props.Panic
/-!
# Property C83 (and the materialization part of C82): trees whose exactness claim is not true

A `DenseTree` or `SparseTree` claims `EXACT_HIERARCHY`, and a `map`, `union`, `multi_union` of such
trees passes the claim on; but after a caught panic of `T::default()` (finding 14), or after
materializing an expression without exact hierarchy (finding 4), the tree can hold empty nodes.
`Loose` collects the expressions over such containers.
-/
namespace Hibit.Props
open Hibit Hibit.Dense

/-- As `UsableDense`, without exactness: the DenseTree `t` of depth `D` holds the map `M`, every further
supported history returns what it returns on the map and leaves a tree that obeys the trait contract
apart from the exactness claim, whose `get`, iteration and `key_values()` are the map's, and dropping
it then frees everything and drops exactly the stored values. -/
def UsableInexact {α : Type} (D : Nat) (t : DT α) (M : Nat → Option α) : Prop :=
  ∀ ops, LaterHistory D M ops → ∃ t', run D t ops = .ok (t', (specRun M ops).2) ∧
    IsTreeC (denseInexact α D) t' (specRun M ops).1 ∧ GetIterIs (impl α D) t' (specRun M ops).1 ∧
    (∃ (ks : List Nat) (vs : List α), keyValues t' = .ok (ks, vs.map some) ∧
      ks.length = vs.length ∧ ks.Nodup ∧
      ∀ k v, (∃ j : Nat, ks[j]? = some k ∧ vs[j]? = some v) ↔
        k < 64 ^ D ∧ (specRun M ops).1 k = some v) ∧
    ∃ vs heap', dropImpl D t' = .ok (vs, heap') ∧
      List.Perm vs (valuesOf (64 ^ D) (specRun M ops).1) ∧ ∀ a, heap'.node a = none

theorem usableInexact_of_rep {α : Type} {M : Nat → Option α} {D : Nat} {t : DT α} (h1 : 1 ≤ D)
    (h9 : D ≤ 9) (R : DRep NoNode D t M) : UsableInexact D t M := by
  intro ops h
  obtain ⟨t', e, R'⟩ := run_spec h9 ops t M R (fun op hop => by
    cases op with
    | remove k => exact h.removeDepth k hop
    | _ => exact h1) h.inRange h.bounded
  have ht := isTreeC_inexact h1 h9 R'
  exact ⟨t', e, ht, getIterIs_inexact ht.isTree, keyValues_spec R', dropImpl_spec R' h1⟩

section
variable {S C α : Type} {I : Impl S C α} {s : S} {M : Nat → Option α}

/-- Materializing a tree that claims exactness, and obeys the contract apart from the claim. -/
theorem materialize_loose (h : IsTree { I with exact := false } s M) (hN : I.N = 1)
    (hex : I.exact = true) (h9 : I.D ≤ 9) (hroom : card (64 ^ I.D) M < 2 ^ 32) :
    ∃ t, materialize I s = .ok t ∧
      (∀ k, (impl α I.D).get t k = I.get s k) ∧
      (∃ F, ∀ fuel, F ≤ fuel → ∀ n, (impl α I.D).iterRun t fuel n = I.iterRun s fuel n) ∧
      keyValues t = .ok (keysOf (64 ^ I.D) M, (valuesOf (64 ^ I.D) M).map some) ∧
      UsableInexact I.D t (restrict (64 ^ I.D) M) := by
  have h' := h
  obtain ⟨T, K, L, hc⟩ := h'
  have h1 : 1 ≤ I.D := L.cfg.depth
  have hW : width I.N = 64 := by rw [hN]; rfl
  have X : Src { I with exact := false } s T K (restrict (64 ^ I.D) M) := by
    refine ⟨L, hN, h9, fun i hi => ?_, by
      show card (64 ^ I.D) (restrict (64 ^ I.D) M) < 2 ^ 32
      rw [card_restrict]; exact hroom⟩
    have := hc i (by rw [hW]; exact hi)
    simp only at this
    rw [hW] at this
    rw [show ({ I with exact := false } : Impl S C α).D = I.D from rfl, this, restrict,
      if_pos (show i < 64 ^ I.D from hi)]
  have hasE : asExact { I with exact := false } = I := by
    cases I
    simp only at hex
    subst hex
    rfl
  obtain ⟨t, e, R, hk, hd⟩ := materialize_any X (fun k hk => by
    rw [restrict, if_neg (by exact Nat.not_lt.2 hk)])
  rw [hasE] at e
  change DRep NoNode I.D t _ at R
  have ht := isTreeC_inexact h1 h9 R
  refine ⟨t, e, fun k => ?_, ?_, ?_, usableInexact_of_rep h1 h9 R⟩
  · have g1 := tree_get ht.isTree k
    have g2 := tree_get h k
    change (impl α I.D).get t k = (if k < min (64 ^ I.D) _ then _ else _) at g1
    change I.get s k = (if k < min (width I.N ^ I.D) _ then _ else _) at g2
    rw [g1, g2, hW]
    by_cases hk : k < min (64 ^ I.D) (2 ^ 64 - 1)
    · rw [if_pos hk, if_pos hk, restrict, if_pos (by omega)]
    · rw [if_neg hk, if_neg hk]
  · obtain ⟨F1, f1⟩ := contract_iter ht.isTree
    obtain ⟨F2, f2⟩ := contract_iter h
    refine ⟨max F1 F2, fun fuel hf n => ?_⟩
    have g1 := f1 fuel (by omega) n
    have g2 := f2 fuel (by omega) n
    rw [iterRun_exact_irrel] at g2
    rw [show denseInexact α I.D = { impl α I.D with exact := false } from rfl,
      iterRun_exact_irrel] at g1
    rw [g1, g2]
    have : listing (64 ^ I.D) (restrict (64 ^ I.D) M) = listing (64 ^ I.D) M := by
      unfold listing
      apply filterMap_range_congr
      intro k hk
      simp [restrict, hk]
    show Except.ok ((List.range n).map fun k =>
      (listing (64 ^ I.D) (restrict (64 ^ I.D) M))[k]?) = Except.ok ((List.range n).map fun k =>
      (listing (width I.N ^ I.D) M)[k]?)
    rw [this, hW]
  · change t.keys = (usizeMod - 1) :: keysOf (64 ^ I.D) _ at hk
    change t.data = none :: (valuesOf (64 ^ I.D) _).map some at hd
    unfold keyValues
    rw [keysOf_restrict] at hk
    rw [valuesOf_restrict] at hd
    rw [if_pos ⟨by simp [hk], by simp [hd]⟩, hk, hd]
    simp

end

/-- Expressions over containers whose exactness claim may be wrong. As `Built`, with additional leaves. -/
inductive Loose : Bool → {S C δ : Type} → Impl S C δ → S → (Nat → Option δ) → Prop
  /-- any expression over containers and documented user trees -/
  | good {x : Bool} {S C δ : Type} {I : Impl S C δ} {s : S} {M : Nat → Option δ} :
      Built x I s M → Loose x I s M
  /-- a `DenseTree` after a history in which `T::default()` may panic -/
  | dense {α : Type} {D : Nat} {es : List (PEvent α)} {t0 t : DT α}
      {outs : List (Option α × List α)} : DensePHistory D es → Dense.default α D = .ok t0 →
      prun D t0 es = .ok (t, outs) → Loose true (impl α D) t (pspecRun emptyMap es).1
  /-- a `SparseTree` after a history in which `T::default()` may panic -/
  | sparse {α : Type} {N D : Nat} {dflt : Option α} {es : List (Sparse.PEvent α)} {t : Sparse.ST α}
      {outs : List (Option α × List α)} : SparsePHistory N D dflt es →
      Sparse.prun N D (Sparse.default α N D dflt) es = .ok (t, outs) →
      Loose true (Sparse.impl α N D) t (Sparse.pspecRun dflt emptyMap es).1
  /-- a `DenseTree` materialized from an expression without exact hierarchy, after a further history
  that leaves the set of occupied blocks of 64 keys unchanged (see C43) -/
  | inexact {x : Bool} {S C α : Type} {I : Impl S C α} {s : S} {M : Nat → Option α}
      {ops : List (Op α)} {t t' : DT α} {outs : List (Option α × List α)} :
      Loose x I s M → I.N = 1 → I.exact = false → I.D ≤ 9 → card (64 ^ I.D) M < 2 ^ 32 →
      materialize I s = .ok t → LaterHistory I.D (restrict (64 ^ I.D) M) ops →
      KeepsBlocks (restrict (64 ^ I.D) M) ops → run I.D t ops = .ok (t', outs) →
      Loose true (impl α I.D) t' (specRun (restrict (64 ^ I.D) M) ops).1
  /-- a `DenseTree` materialized from such an expression that claims exact hierarchy, after any
  further history -/
  | again {x : Bool} {S C α : Type} {I : Impl S C α} {s : S} {M : Nat → Option α}
      {ops : List (Op α)} {t t' : DT α} {outs : List (Option α × List α)} :
      Loose x I s M → I.N = 1 → I.exact = true → I.D ≤ 9 → card (64 ^ I.D) M < 2 ^ 32 →
      materialize I s = .ok t → LaterHistory I.D (restrict (64 ^ I.D) M) ops →
      run I.D t ops = .ok (t', outs) →
      Loose true (impl α I.D) t' (specRun (restrict (64 ^ I.D) M) ops).1
  | weaken {S C δ : Type} {I : Impl S C δ} {s : S} {M : Nat → Option δ} :
      Loose true I s M → Loose false I s M
  | union {S0 C0 δ0 S1 C1 δ1 : Type} {I0 : Impl S0 C0 δ0} {I1 : Impl S1 C1 δ1} {a : S0} {b : S1}
      {A : Nat → Option δ0} {B : Nat → Option δ1} : I0.N = I1.N → I0.D = I1.D →
      Loose true I0 a A → Loose true I1 b B → Loose true (unionImpl I0 I1) (a, b) (unionMap A B)
  | inter {x : Bool} {S0 C0 δ0 S1 C1 δ1 : Type} {I0 : Impl S0 C0 δ0} {I1 : Impl S1 C1 δ1} {a : S0}
      {b : S1} {A : Nat → Option δ0} {B : Nat → Option δ1} : I0.N = I1.N → I0.D = I1.D →
      Loose x I0 a A → Loose x I1 b B → Loose x (interImpl I0 I1) (a, b) (interMap A B)
  | map {x : Bool} {S C δ ε : Type} {I : Impl S C δ} {a : S} {A : Nat → Option δ} (f : δ → ε) :
      Loose x I a A → Loose x (mapImpl I f) a (fun i => (A i).map f)
  | multiInter {S C δ : Type} {I : Impl S C δ} {ss : List S} (content : S → Nat → Option δ) :
      ss ≠ [] → ss.length ≤ 32 → (∀ s ∈ ss, Loose false I s (content s)) →
      Loose true (multiInterImpl I) ss (multiInterMap (ss.map content))
  | multiUnion {S C δ : Type} {I : Impl S C δ} {ss : List S} (content : S → Nat → Option δ) :
      ValidCfg I.N I.D → 2 ≤ I.D → ss.length ≤ 32 → (∀ s ∈ ss, Loose true I s (content s)) →
      Loose false (multiUnionImpl I) ss (multiUnionMap (ss.map content))
  | fold {x : Bool} {S C δ β : Type} {I : Impl S C (List δ)} {s : S} {A : Nat → Option (List δ)}
      (init : β) (f : β → δ → β) : Loose x I s A →
      Loose x (foldImpl I init f) s (fun i => (A i).map (fun vs => vs.foldl f init))

/-- A tree obeys the contract with its exactness claim withdrawn. -/
theorem SpecWf.inexact {δ : Type} {W D : Nat} {e : Bool} {T : TreeSpec δ} (h : SpecWf W D e T) :
    SpecWf W D false T := { h with exact_child := fun e => by cases e }

theorem lawful_inexact {S C δ : Type} {I : Impl S C δ} {s : S} {T : TreeSpec δ} {K : CursorRel C}
    (L : Lawful I s T K) : Lawful { I with exact := false } s T K where
  cfg := L.cfg
  wf := SpecWf.inexact L.wf
  data_eq := L.data_eq
  dataU_eq := L.dataU_eq
  new_ok := L.new_ok
  pos_inv := L.pos_inv
  posC_pos := L.posC_pos
  pos_take := L.pos_take
  select_root := L.select_root
  selectU_root := L.selectU_root
  select_node := L.select_node
  selectU_node := L.selectU_node
  curDataU_eq := L.curDataU_eq

theorem isTree_inexact {S C δ : Type} {I : Impl S C δ} {s : S} {M : Nat → Option δ}
    (h : IsTree I s M) : IsTree { I with exact := false } s M := by
  obtain ⟨T, K, L, hc⟩ := h
  exact ⟨T, K, lawful_inexact L, hc⟩

theorem isTreeC_withdraw {S C δ : Type} {I : Impl S C δ} {s : S} {M : Nat → Option δ}
    (h : IsTreeC I s M) : IsTreeC { I with exact := false } s M := by
  obtain ⟨T, K, L, hc⟩ := h
  exact ⟨T, K, ⟨lawful_inexact L.toLawful, L.curData_eq⟩, hc⟩

theorem withdraw_same {S C δ : Type} {I : Impl S C δ} (h : I.exact = false) :
    { I with exact := false } = I := by
  cases I
  simp only at h
  subst h
  rfl

/-- `multi_intersection` and `multi_union` do not look at the claim of their sources. -/
theorem miCursorData_withdraw {S C δ : Type} (I : Impl S C δ) (i : Nat) : ∀ (cs : List C) (ss : List S),
    miCursorData { I with exact := false } i cs ss = miCursorData I i cs ss
  | [], ss => by cases ss <;> rfl
  | c :: cs, ss => by simp only [miCursorData, miCursorData_withdraw I i cs]

theorem multiInter_withdraw {S C δ : Type} (I : Impl S C δ) :
    ({ multiInterImpl I with exact := false } : Impl (List S) (MICursor C) (List δ)) =
      multiInterImpl { I with exact := false } := by
  unfold multiInterImpl
  simp only [miCursorData_withdraw]
  rfl

theorem muSelectRoot_withdraw {S C δ : Type} (I : Impl S C δ) (i : Nat) :
    ∀ (l : List (S × C)) (acc : Mask),
    muSelectRoot { I with exact := false } i l acc = muSelectRoot I i l acc
  | [], _ => rfl
  | (s, c) :: l, acc => by simp only [muSelectRoot, muSelectRoot_withdraw I i l]

theorem muSelectSome_withdraw {S C δ : Type} (I : Impl S C δ) (n i : Nat) :
    ∀ (ks : List Nat) (l : List (S × C)) (ne : List Nat) (acc : Mask),
    muSelectSome { I with exact := false } n i ks l ne acc = muSelectSome I n i ks l ne acc
  | [], _, _, _ => rfl
  | k :: ks, l, ne, acc => by simp only [muSelectSome, muSelectSome_withdraw I n i ks]

theorem muCursorData_withdraw {S C δ : Type} (I : Impl S C δ) (l : List (S × C)) (i : Nat) :
    ∀ (ks : List Nat), muCursorData { I with exact := false } l i ks = muCursorData I l i ks
  | [] => rfl
  | k :: ks => by simp only [muCursorData, muCursorData_withdraw I l i ks]

theorem multiUnion_withdraw {S C δ : Type} (I : Impl S C δ) :
    ({ multiUnionImpl I with exact := false } : Impl (List S) (MUCursor S C) (List δ)) =
      multiUnionImpl { I with exact := false } := by
  unfold multiUnionImpl muSelect muCurData
  simp only [muSelectRoot_withdraw, muSelectSome_withdraw, muCursorData_withdraw]

theorem loose_isTree {x : Bool} {S C δ : Type} {I : Impl S C δ} {s : S} {M : Nat → Option δ}
    (h : Loose x I s M) : IsTree { I with exact := false } s M ∧
      (x = true → IsTreeC { I with exact := false } s M) := by
  induction h with
  | good hb =>
    have := built_isTree hb
    exact ⟨isTree_inexact this.1, fun e => isTreeC_withdraw (this.2 e)⟩
  | dense h e0 er =>
    obtain ⟨t0, t, g0, g1, -, g3, -⟩ := C47_dense h
    rw [e0] at g0; cases g0
    rw [er] at g1; cases g1
    exact ⟨g3.isTree, fun _ => g3⟩
  | sparse h er =>
    obtain ⟨t, g1, -, g3, -⟩ := C47_sparse h
    rw [er] at g1; cases g1
    exact ⟨g3.isTree, fun _ => g3⟩
  | inexact _ hN hex h9 hroom em hl hb er ih =>
    have h1 := ih.1
    rw [withdraw_same hex] at h1
    rcases contract_materialize h1 hN hex h9 hroom with ⟨t, e1, -, hu, -⟩ | ⟨e1, -⟩
    · rw [em] at e1; cases e1
      obtain ⟨t', e2, g, -⟩ := hu _ hl hb
      rw [er] at e2; cases e2
      exact ⟨g.isTree, fun _ => g⟩
    · rw [em] at e1; cases e1
  | again _ hN hex h9 hroom em hl er ih =>
    obtain ⟨t, e1, -, -, -, hu⟩ := materialize_loose ih.1 hN hex h9 hroom
    rw [em] at e1; cases e1
    obtain ⟨t', e2, g, -⟩ := hu _ hl
    rw [er] at e2; cases e2
    exact ⟨g.isTree, fun _ => g⟩
  | weaken _ ih => exact ⟨ih.1, fun e => by cases e⟩
  | @union S0 C0 δ0 S1 C1 δ1 I0 I1 a b A B hN hD _ _ iha ihb =>
    have := union_isTree (I0 := { I0 with exact := false }) (I1 := { I1 with exact := false }) hN hD
      (iha.2 rfl) (ihb.2 rfl)
    exact ⟨this.isTree, fun _ => this⟩
  | @inter x S0 C0 δ0 S1 C1 δ1 I0 I1 a b A B hN hD _ _ iha ihb =>
    exact ⟨inter_isTree (I0 := { I0 with exact := false }) (I1 := { I1 with exact := false }) hN hD
      iha.1 ihb.1, fun e => inter_isTreeC (I0 := { I0 with exact := false })
      (I1 := { I1 with exact := false }) hN hD (iha.2 e) (ihb.2 e)⟩
  | map f _ ih => exact ⟨map_isTree f ih.1, fun e => map_isTreeC f (ih.2 e)⟩
  | @multiInter S C δ I ss content hne hcap _ ih =>
    rw [multiInter_withdraw]
    have := multiInter_isTree (I := { I with exact := false }) hne hcap (fun s hs => (ih s hs).1)
    exact ⟨this.isTree, fun _ => this⟩
  | @multiUnion S C δ I ss content hcfg hD hcap _ ih =>
    rw [multiUnion_withdraw]
    exact ⟨multiUnion_isTree (I := { I with exact := false }) hcfg hD hcap
      (fun s hs => (ih s hs).2 rfl), fun e => by cases e⟩
  | @fold x S C δ β I s A init f _ ih =>
    have e : ({ foldImpl I init f with exact := false } : Impl S C β) =
        mapImpl { I with exact := false } (fun vs => vs.foldl f init) := by
      rw [foldImpl_eq]; rfl
    rw [e]
    exact ⟨map_isTree _ ih.1, fun e => map_isTreeC _ (ih.2 e)⟩

/-! ## C83 -/

section
variable {x : Bool} {S C δ : Type} {I : Impl S C δ} {s : S} {M : Nat → Option δ}

/-- **C83**: an expression over containers that may hold empty nodes although they claim exactness
shows, through `get` and iteration, exactly its content; and it behaves as the traits' documentation
says for a tree without exact hierarchy. -/
theorem C83_reads (h : Loose x I s M) :
    GetIterIs I s M ∧ TreeDocs x { I with exact := false } s M := by
  have ht := loose_isTree h
  refine ⟨getIterIs_inexact ht.1, ?_⟩
  cases x with
  | false => exact isTree_docs ht.1
  | true => exact isTreeC_docs (ht.2 rfl)

/-- **C83**: and materializing it with `from_exact_hierarchy` (i.e. when the expression's type claims
exactness) has no undefined behaviour and gives an equal tree that is fully usable apart from
exactness. In particular the wrong header lengths of a tree materialized from an expression without
exact hierarchy (finding 2, `C43_fails_insert`) are repaired by materializing (a view of) it again. -/
theorem C83_materialize (h : Loose x I s M) (hN : I.N = 1) (hex : I.exact = true) (h9 : I.D ≤ 9)
    (hroom : card (64 ^ I.D) M < 2 ^ 32) :
    ∃ t, materialize I s = .ok t ∧
      (∀ k, (impl δ I.D).get t k = I.get s k) ∧
      (∃ F, ∀ fuel, F ≤ fuel → ∀ n, (impl δ I.D).iterRun t fuel n = I.iterRun s fuel n) ∧
      keyValues t = .ok (keysOf (64 ^ I.D) M, (valuesOf (64 ^ I.D) M).map some) ∧
      UsableInexact I.D t (restrict (64 ^ I.D) M) :=
  materialize_loose (loose_isTree h).1 hN hex h9 hroom

end

/-- `exPanics` leaves an empty node for the key 4095; the tree is `Loose`. -/
theorem exLoose : ∃ t, (do let t0 ← Dense.default Nat 2
                           let r ← prun 2 t0 exPanics
                           return r.1 : R (DT Nat)) = .ok t ∧
    Loose true (impl Nat 2) t (pspecRun emptyMap exPanics).1 := by
  obtain ⟨t0, t, e0, e1, -⟩ := C47_dense exPanics_history
  exact ⟨t, by rw [e0, bind_ok, e1]; rfl, .dense exPanics_history e0 e1⟩

/-- The hypotheses are met: that tree, and its union with `exD`; the union claims exactness and can be
materialized. -/
example : ∃ t, Loose true (unionImpl (impl Nat 2) (impl Nat 2)) (t, exD)
      (unionMap (pspecRun emptyMap exPanics).1 exDM) ∧
    (unionImpl (impl Nat 2) (impl Nat 2)).exact = true ∧
    ∃ u, materialize (unionImpl (impl Nat 2) (impl Nat 2)) (t, exD) = .ok u ∧
      (impl _ 2).get u 64 = .ok (some (some 1, some 72)) ∧ (impl _ 2).get u 4095 = .ok none := by
  obtain ⟨t, e, h⟩ := exLoose
  have hu := Loose.union (I0 := impl Nat 2) (I1 := impl Nat 2) rfl rfl h (.good exD_built)
  obtain ⟨u, e1, g, -⟩ := C83_materialize hu rfl rfl (by decide)
    (Nat.lt_of_le_of_lt (card_le _ _) (by decide))
  have hg := (C83_reads hu).1.1
  refine ⟨t, hu, rfl, u, e1, ?_, ?_⟩
  · refine (g 64).trans ((hg 64 (by decide) (by decide)).trans (congrArg _ ?_))
    decide +kernel
  · refine (g 4095).trans ((hg 4095 (by decide) (by decide)).trans (congrArg _ ?_))
    decide +kernel

/-- A tree materialized from an intersection (with an empty node for the keys from 64 on, and wrong
header lengths, see `C43_fails_insert`), a view of it materialized again, and then inserted into,
removed from and read. -/
example : (do
    let a ← interOf 2 [0, 64] [0, 65]
    let t ← materialize (mapImpl (impl _ 2) (fun (p : Nat × Nat) => p.1 + 1)) a
    let c ← (impl _ 2).new t
    let (masks, _) ← runMoves (impl _ 2) t c [⟨true, 0, 0⟩, ⟨true, 1, 1⟩]
    let (t', os) ← run 2 t [.insert 130 7, .remove 64, .insert 66 1, .remove 0]
    let items ← (impl _ 2).iterRun t' 9 3
    return (masks, os.map (·.1), ← (impl _ 2).get t' 128, items) :
      R (List Mask × List (Option Nat) × Option Nat × List (Option (Nat × Nat)))) =
    .ok ([[3], [0]], [none, none, none, some 1], none,
      [some (66, 1), some (130, 7), none]) := by rfl

/-! ## C82: materializing trees with wrong answers -/

section
variable {h : Bool} {S C δ : Type} {I : Impl S C δ} {s : S}

theorem sturdy_materialize (hs : Sturdy tm true h I s) (hN : I.N = 1) (h9 : I.D ≤ 9) :
    (I.exact = true → materialize I s ≠ .error .ub) ∧
    ∀ t, materialize I s = .ok t → t.data.length ≤ 2 ^ 32 → ∃ M : Nat → Option δ,
      keyValues t = .ok (keysOf (64 ^ I.D) M, (valuesOf (64 ^ I.D) M).map some) ∧
      GetIterIs (impl δ I.D) t M ∧
      (I.exact = true → UsableInexact I.D t M) ∧ (I.exact = false → BlockUsableDense I.D t M) := by
  obtain ⟨g1, g2⟩ := materialize_wrong hs hN h9
  have h1 : 1 ≤ I.D := hs.choose_spec.cfg.depth
  refine ⟨g1.1, fun t e hlen => ?_⟩
  obtain ⟨M, hout, hd, hk, -, hR⟩ := g2 t e hlen
  have hcard : card (64 ^ I.D) M < 2 ^ 32 := by
    have : (valuesOf (64 ^ I.D) M).length + 1 ≤ 2 ^ 32 := by
      rw [hd] at hlen
      simpa using hlen
    rw [← card_eq_length]; omega
  have hlater : LaterHistory I.D M ([] : List (Op δ)) :=
    ⟨fun _ h => (nomatch h), hcard, fun _ h => (nomatch h)⟩
  refine ⟨M, ?_, ?_, ?_, ?_⟩
  · unfold keyValues
    rw [if_pos ⟨by simp [hk], by simp [hd]⟩, hk, hd]
    simp
  · cases hex : I.exact with
    | true =>
      rw [hex, if_pos rfl] at hR
      obtain ⟨t', e', -, g, -⟩ := usableInexact_of_rep h1 h9 hR [] hlater
      cases e'
      exact g
    | false =>
      rw [hex, if_neg (by decide)] at hR
      obtain ⟨t', e', -, g, -⟩ := blockUsable_of_rep h1 h9 hR [] hlater (by simp [KeepsBlocks])
      cases e'
      exact g
  · intro hex
    rw [hex, if_pos rfl] at hR
    exact usableInexact_of_rep h1 h9 hR
  · intro hex
    rw [hex, if_neg (by decide)] at hR
    exact blockUsable_of_rep h1 h9 hR


/-- **C82**: materializing an expression over containers and user trees with arbitrary answers. If its
type claims exactness there is no undefined behaviour. Whenever it gives a tree (with at most 2^32
slots), that tree holds some map: `key_values()`, `get` and iteration agree on it, and it is usable as
in C83 (from an expression claiming exactness) or C43 (from others).

Missing: an expression without exactness claim, none of whose announced nodes is kept, is undefined
behaviour (finding 3, `C43_fails_empty_root`); `union` over a tree that answers `None` (`C82_fails`). -/
theorem C82_materialize_partial (hm : Mixed t true h I s) (hN : I.N = 1) (h9 : I.D ≤ 9) :
    (I.exact = true → materialize I s ≠ .error .ub) ∧
    ∀ t, materialize I s = .ok t → t.data.length ≤ 2 ^ 32 → ∃ M : Nat → Option δ,
      keyValues t = .ok (keysOf (64 ^ I.D) M, (valuesOf (64 ^ I.D) M).map some) ∧
      GetIterIs (impl δ I.D) t M ∧
      (I.exact = true → UsableInexact I.D t M) ∧ (I.exact = false → BlockUsableDense I.D t M) :=
  sturdy_materialize (mixed_sturdy hm) hN h9

end

/-- A liar that claims exactness: not a documented tree, materialized nevertheless; and an
intersection with a liar. -/
example : Mixed true true false ({ liar 1 1 with exact := true }) () ∧
    (do let t ← materialize ({ liar 1 1 with exact := true }) ()
        let (t, o) ← run 1 t [.insert 3 77]
        let items ← (impl _ 1).iterRun t 9 2
        return (o.map (·.2), t.keys.length, ← (impl _ 1).get t 3, items.length) :
          R (List (List Nat) × Nat × Option Nat × Nat)) = .ok ([[4]], 65, some 77, 2) ∧
    Mixed true true false (interImpl (impl Nat 2) (liar 1 2)) (exD, ()) ∧
    (do let t ← materialize (interImpl (impl Nat 2) (liar 1 2)) (exD, ())
        return (t.keys, ← (impl _ 2).get t 5, ← (impl _ 2).get t 6) :
          R (List Nat × Option (Nat × Nat) × Option (Nat × Nat))) =
      .ok ([usizeMod - 1, 5, 64, 200], some (56, 7), none) := by
  refine ⟨.user ?_ ?_, by decide +kernel, ?_, by decide +kernel⟩
  · have := liar_tame (N := 1) (D := 1) ⟨by decide, by decide, by decide⟩
    exact ⟨this.cfg, this.data, this.create, this.select, this.selectU, this.words, this.curData,
      this.curDataU⟩
  · intro _
    have := liar_returns (N := 1) (D := 1)
    exact ⟨this.data, this.create, this.select, this.selectU, this.curData, this.curDataU⟩
  · exact .inter rfl rfl (.weaken (.good exD_built) (fun e => e) (fun e => rfl))
      (.user (liar_tame liar_cfg) fun _ => liar_returns)

end Hibit.Props
