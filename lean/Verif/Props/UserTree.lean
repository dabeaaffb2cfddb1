import Verif.Props.Trees
/-!
# Property C69: trees written by the user, in any expression

With `Built.custom` every theorem of `Props/Trees.lean` (and of all files using `Built`) covers
expressions that contain user-written trees. Here the main consequences are spelled out.
-/
namespace Hibit.Props
open Hibit

section
variable {x y : Bool} {S C δ S1 C1 δ1 : Type} {I : Impl S C δ} {s : S} {M : Nat → Option δ}
  {J : Impl S1 C1 δ1} {t : S1} {A : Nat → Option δ1}

/-- **C69**: a tree that behaves as the traits' documentation asks (`TreeDocs`) works with the
provided methods (`get`, `get_unchecked`, `iter`), can be combined with any other tree expression by
`union` and `intersection` and mapped, with the pointwise meaning. -/
theorem C69_user_tree (h : TreeDocs x I s M) :
    GetIterIs I s M ∧
    (∀ i v, I.get s i = .ok (some v) → I.getU s i = .ok v) ∧
    (∀ {ε : Type} (f : δ → ε), GetIterIs (mapImpl I f) s fun i => (M i).map f) ∧
    (I.N = J.N → I.D = J.D → Built y J t A →
      GetIterIs (interImpl I J) (s, t) (interMap M A) ∧
      GetIterIs (interImpl J I) (t, s) (interMap A M) ∧
      (x = true → y = true → GetIterIs (unionImpl I J) (s, t) (unionMap M A) ∧
        GetIterIs (unionImpl J I) (t, s) (unionMap A M))) := by
  have hb : Built x I s M := .custom h
  refine ⟨C41_compositions hb, fun i v e => C29_get_unchecked hb e, fun f => C33_map f hb, ?_⟩
  intro hN hD ht
  refine ⟨C32_intersection hN hD hb ht, C32_intersection hN.symm hD.symm ht hb, ?_⟩
  rintro rfl rfl
  exact ⟨C31_union hN hD hb ht, C31_union hN.symm hD.symm ht hb⟩

/-- The user's `everywhere` (square of the index at each index) with the DenseTree `exD`. -/
example : TreeDocs true (everywhere 1 2 fun i => i * i) () (fun i => some (i * i)) ∧
    (interImpl (everywhere 1 2 fun i => i * i) (Dense.impl Nat 2)).iterRun ((), exD) 9 4 =
      .ok [some (5, (25, 56)), some (64, (4096, 72)), some (200, (40000, 202)), none] ∧
    (unionImpl (Dense.impl Nat 2) (everywhere 1 2 fun i => i * i)).iterRun (exD, ()) 9 6 =
      .ok [some (0, (none, some 0)), some (1, (none, some 1)), some (2, (none, some 4)),
        some (3, (none, some 9)), some (4, (none, some 16)), some (5, (some 56, some 25))] :=
  ⟨everywhere_docs ⟨by decide, by decide, by decide⟩ _, by decide +kernel, by decide +kernel⟩

/-- **C69**, collections of user-written trees of one type. -/
theorem C69_user_multi {ss : List S} {content : S → Nat → Option δ} (hcap : ss.length ≤ 32)
    (h : ∀ s ∈ ss, TreeDocs x I s (content s)) :
    (ss ≠ [] → GetIterIs (multiInterImpl I) ss (multiInterMap (ss.map content))) ∧
    (x = true → ValidCfg I.N I.D → 2 ≤ I.D →
      GetIterIs (multiUnionImpl I) ss (multiUnionMap (ss.map content))) := by
  refine ⟨fun hne => C35_multi_intersection hne hcap fun s hs => .custom (h s hs), ?_⟩
  rintro rfl hc hD
  exact C34_multi_union hc hD hcap fun s hs => .custom (h s hs)

example : (foldImpl (multiUnionImpl (everywhere 1 2 fun i => i * i)) 1 (· + ·)).iterRun [(), ()] 9 3 =
    .ok [some (0, 1), some (1, 3), some (2, 9)] := by decide +kernel

/-- **C69**, the converse: every expression made with the crate behaves as documented, so that code
written by the user against the documentation of `HibitTree` and `HibitTreeCursor` can use it. -/
theorem C69_documented (h : Built x I s M) : TreeDocs x I s M := by
  have hb := built_isTree h
  cases x with
  | false => exact isTree_docs hb.1
  | true => exact isTreeC_docs (hb.2 rfl)

example : TreeDocs true exUnion (exD, exU) (unionMap exDM exUM) := C69_documented exUnion_built

/-- **C69**: materializing a user-written tree that declares an exact hierarchy. -/
theorem C69_materialize (h : TreeDocs x I s M) (hN : I.N = 1) (hex : I.exact = true) (h9 : I.D ≤ 9)
    (hroom : card (64 ^ I.D) M < 2 ^ 32) :
    ∃ t, Dense.materialize I s = .ok t ∧ (∀ k, (Dense.impl δ I.D).get t k = I.get s k) ∧
      UsableDense I.D t (restrict (64 ^ I.D) M) := by
  obtain ⟨t, h1, h2, -, -, h3⟩ := C42_materialize_exact (.custom h) hN hex h9 hroom
  exact ⟨t, h1, h2, h3⟩

example : (do
    let t ← Dense.materialize (everywhere 1 1 fun i => i * i) ()
    return (← (Dense.impl Nat 1).get t 0, ← (Dense.impl Nat 1).get t 63) : R _) =
    .ok (some 0, some 3969) := by decide +kernel

end

/-! ### The documented conditions are needed -/

/-- `everywhere` with a wrong root mask (bit 0 missing). -/
def forgetful : Impl Unit (List Nat) Nat :=
  { everywhere 1 1 (fun i => i) with
    select := fun _ _ _ _ => .ok ([BitVec.allOnes 64 <<< 1], [])
    selectU := fun _ _ _ _ => .ok ([BitVec.allOnes 64 <<< 1], []) }

/-- **C69**: with a mask that misses a present index the tree is not as documented, and iteration does
not agree with `get`. -/
theorem C69_masks_needed : (∀ i, i < 64 → forgetful.data () i (path 64 1 i) = .ok (some i)) ∧
    (∀ x, ¬ TreeDocs x forgetful () fun i => some i) ∧
    forgetful.get () 0 = .ok (some 0) ∧
    forgetful.iterRun () 9 2 = .ok [some (1, 1), some (2, 2)] := by
  have h1 : forgetful.iterRun () 9 2 = .ok [some (1, 1), some (2, 2)] := by decide +kernel
  refine ⟨fun i _ => rfl, fun x h => ?_, by decide +kernel, h1⟩
  obtain ⟨B, hB, c0, e0, hm⟩ := h.cursor
  have hl : LegalMoves (width forgetful.N) forgetful.D B none [⟨true, 0, 0⟩] :=
    ⟨⟨by decide, fun _ => rfl, fun n e => by cases e⟩, trivial⟩
  obtain ⟨masks, c, e1, e2, -⟩ := hm _ hl
  have e3 : runMoves forgetful () c0 [⟨true, 0, 0⟩] = .ok ([[BitVec.allOnes 64 <<< 1]], []) := rfl
  rw [e3] at e1
  cases e1
  rw [show movePaths none [(⟨true, 0, 0⟩ : Move)] = [[]] from rfl] at e2
  have h4 := e2.1.2 0
  rw [hB.terminal [] 0 (by intro y hy; cases hy) rfl (by decide)] at h4
  revert h4
  decide

end Hibit.Props
