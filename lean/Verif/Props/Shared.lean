import Verif.Bytes.Shared
import Verif.Bytes.Iter
import Verif.Props.Bytes
import Verif.Props.MatAgain
import Verif.Props.MatGrow
/-!
# Property C65: several DenseTrees and the rest of the program share one memory

A program creates DenseTrees of any depths, by `default()` or by `materialize()` of any tree (for instance
of an operation over the trees in memory), works on them in any order, drops them at any time, and allocates,
writes and frees memory of its own in between. `T::default()` may panic in `get_or_insert`; the program may
catch the panic. All blocks are in one memory; the allocator is arbitrary, and may give the address of any
freed block to anybody.

Because of findings 2, 4 and 14 not every tree supports every operation. A tree has a `Grade`, which says what
it supports.
-/
namespace Hibit.Props
open Hibit Hibit.Dense

section
variable {α : Type}

/-- A DenseTree apart from its nodes: `root`, `data`, `keys` (dense_tree.rs:73-90). -/
structure Handle (α : Type) where
  root : Ptr
  data : List (Option α)
  keys : List Nat

/-- The tree, its nodes being in the memory `m`. -/
def Handle.tree (h : Handle α) (m : Bytes.BHeap) : Bytes.BT α := ⟨m, h.root, h.data, h.keys⟩

/-- The tree apart from its nodes. -/
def handle (t : Bytes.BT α) : Handle α := ⟨t.root, t.data, t.keys⟩

/-- The state of the program: its memory and its variables, some holding trees. -/
structure World (α : Type) where
  mem : Bytes.BHeap
  trees : Nat → Option (Handle α)

/-- What a tree supports. -/
inductive Grade where
  /-- everything, and it has no empty nodes -/
  | full
  /-- everything; it may have empty nodes, although its type claims exact hierarchy: after a panic of
  `T::default()` (C48), or materialized from such a tree (C83) -/
  | loose
  /-- materialized from a tree without exact hierarchy (C43): reads, and operations that leave the set of
  occupied blocks of 64 keys unchanged -/
  | block
  /-- the same after a key of a new block has been inserted: insertions, and reads and removals in occupied
  blocks -/
  | damaged
  deriving DecidableEq

/-- A tree, as the programmer thinks of it. -/
structure Held (α : Type) where
  grade : Grade
  D : Nat
  map : Nat → Option α

/-- What the programmer thinks of it: variable `i` holds a tree, and the program has blocks of its own. -/
structure Meaning (α : Type) where
  maps : Nat → Option (Held α)
  own : Bytes.Mem

/-- `tree.materialize()` of a tree `s` with the content `M` gives a tree of this grade. -/
inductive Source {S C : Type} (I : Impl S C α) (s : S) (M : Nat → Option α) : Grade → Prop
  /-- a tree with exact hierarchy -/
  | exact : IsTree I s M → I.exact = true → Source I s M .full
  /-- a tree that obeys the contract except that its claim of exact hierarchy may be wrong -/
  | loose : IsTree { I with exact := false } s M → I.exact = true → Source I s M .loose
  /-- a tree without exact hierarchy, not empty (finding 3) -/
  | inexact : IsTree I s M → I.exact = false → (2 ≤ I.D → ∃ k, k < 64 ^ I.D ∧ M k ≠ none) →
      Source I s M .block

/-- A tree of the first grade supports the operation, and has the second grade afterwards. -/
inductive Allowed (M : Nat → Option α) (o : Op α) : Grade → Grade → Prop
  | full : Allowed M o .full .full
  | loose : Allowed M o .loose .loose
  | block : o.KeepsBlocks M → Allowed M o .block .block
  | damage : o.Grows M → Allowed M o .block .damaged
  | damaged : o.Grows M → Allowed M o .damaged .damaged

/-- The states a program can reach, and what they mean. -/
inductive Reach : World α → Meaning α → Prop
  /-- At the start there are no trees, and the memory is whatever it is. -/
  | start {m : Bytes.BHeap} : Bytes.Finite m.block → Reach ⟨m, fun _ => none⟩ ⟨fun _ => none, m.block⟩
  /-- `DenseTree::<_, D>::default()` -/
  | new {W A i D bt} : Reach W A → A.maps i = none → 1 ≤ D → D ≤ 9 →
      Bytes.default α D W.mem = .ok bt →
      Reach ⟨bt.heap, upd W.trees i (some (handle bt))⟩ ⟨upd A.maps i (some ⟨.full, D, emptyMap⟩), A.own⟩
  /-- `tree.materialize()` -/
  | materialize {W A i bt g} {S C : Type} {I : Impl S C α} {s : S} {M : Nat → Option α} : Reach W A →
      A.maps i = none → Source I s M g → I.N = 1 → I.D ≤ 9 →
      card (64 ^ I.D) M < 2 ^ 32 → Bytes.materialize I s W.mem = .ok bt →
      Reach ⟨bt.heap, upd W.trees i (some (handle bt))⟩
        ⟨upd A.maps i (some ⟨g, I.D, restrict (64 ^ I.D) M⟩), A.own⟩
  /-- an operation on the tree in variable `i` -/
  | op {W A i g g' D M h bt out} {o : Op α} : Reach W A → A.maps i = some ⟨g, D, M⟩ →
      W.trees i = some h → LaterHistory D M [o] → Allowed M o g g' →
      Bytes.step D (h.tree W.mem) o = .ok (bt, out) →
      Reach ⟨bt.heap, upd W.trees i (some (handle bt))⟩
        ⟨upd A.maps i (some ⟨g', D, (o.spec M).1⟩), A.own⟩
  /-- `get_or_insert(k)` on the tree in variable `i`, with a `T::default()` that panics if it is called; the
  program catches the panic -/
  | panics {W A i g D M h bt out k} : Reach W A → A.maps i = some ⟨g, D, M⟩ → W.trees i = some h →
      g = .full ∨ g = .loose → k < 64 ^ D →
      Bytes.getOrInsertPanic D (h.tree W.mem) k = .ok (bt, out) →
      Reach ⟨bt.heap, upd W.trees i (some (handle bt))⟩ ⟨upd A.maps i (some ⟨.loose, D, M⟩), A.own⟩
  /-- dropping the tree in variable `i` -/
  | drop {W A i H h vs mem'} : Reach W A → A.maps i = some H → W.trees i = some h →
      Bytes.dropImpl H.D (h.tree W.mem) = .ok (vs, mem') →
      Reach ⟨mem', upd W.trees i none⟩ ⟨upd A.maps i none, A.own⟩
  /-- the rest of the program allocates a block -/
  | alloc {W A} (b : Bytes.Block) : Reach W A →
      Reach ⟨(W.mem.alloc b).1, W.trees⟩ ⟨A.maps, upd A.own (W.mem.alloc b).2 (some b)⟩
  /-- the rest of the program writes to a block of its own -/
  | write {W A x b0} (b : Bytes.Block) : Reach W A → A.own x = some b0 →
      Reach ⟨W.mem.put x b, W.trees⟩ ⟨A.maps, upd A.own x (some b)⟩
  /-- the rest of the program frees a block of its own -/
  | free {W A x b mem'} : Reach W A → A.own x = some b → W.mem.dealloc x b.length = .ok mem' →
      Reach ⟨mem', W.trees⟩ ⟨A.maps, upd A.own x none⟩

/-! ## Invariant -/

/-- The cell tree `t` has the grade. -/
def Graded (t : DT α) (H : Held α) : Prop :=
  (1 ≤ H.D ∧ H.D ≤ 9) ∧ card (64 ^ H.D) H.map < 2 ^ 32 ∧
  match H.grade with
  | .full => DRep AllNodes H.D t H.map
  | .loose => DRep NoNode H.D t H.map
  | .block => DRep NoNode H.D (fixT t) H.map
  | .damaged => Weak.DRep H.D t H.map

/-- Variable `i` holds a usable tree. -/
def Holds (W : World α) (A : Meaning α) (O : Nat → Nat → Prop) (i : Nat) : Prop :=
  ∀ H, A.maps i = some H → ∃ h ρ F, ∃ t : DT α, W.trees i = some h ∧
    Bytes.TRep ρ F t (h.tree W.mem) ∧ O i = Bytes.Own ρ t.heap ∧ Graded t H

/-- The state is separated into usable trees and the rest. -/
structure Inv (W : World α) (A : Meaning α) (O : Nat → Nat → Prop) : Prop where
  sep : Bytes.Sep W.mem.block A.own O
  fin : Bytes.Finite W.mem.block
  gone : ∀ i, A.maps i = none → ∀ x, ¬ O i x
  holds : ∀ i, Holds W A O i

theorem Holds.keep {W : World α} {A : Meaning α} {O O' : Nat → Nat → Prop} {i : Nat} (h : Holds W A O i)
    {W' : World α} {A' : Meaning α} (hO : O' i = O i) (hA : A'.maps i = A.maps i)
    (hW : W'.trees i = W.trees i) (hk : ∀ x, O i x → W'.mem.block x = W.mem.block x)
    (hf : Bytes.Finite W'.mem.block) : Holds W' A' O' i := by
  intro H e
  rw [hA] at e
  obtain ⟨hd, ρ, F, t, e1, T, eO, U⟩ := h H e
  refine ⟨hd, ρ, _, t, hW.trans e1, ⟨T.heap.keep (fun x hx => hk x ?_) hf, T.root, T.data, T.keys⟩,
    hO.trans eO, U⟩
  rw [eO]; exact hx

/-- A step of one tree. -/
theorem Inv.treeStep {W : World α} {A : Meaning α} {O : Nat → Nat → Prop} (J : Inv W A O) (i : Nat)
    {ρ : Bytes.Ren} {t : DT α} {mem' : Bytes.BHeap} {hd : Option (Handle α)}
    {mp : Option (Held α)}
    (H : Bytes.HeapRep ρ (Bytes.outside (O i) W.mem.block) t.heap mem')
    (hgone : mp = none → ∀ a, t.heap.node a = none)
    (hheld : ∀ H, mp = some H → ∃ h, hd = some h ∧
      Bytes.TRep ρ (Bytes.outside (O i) W.mem.block) t (h.tree mem') ∧ Graded t H) :
    Inv ⟨mem', upd W.trees i hd⟩ ⟨upd A.maps i mp, A.own⟩ (upd O i (Bytes.Own ρ t.heap)) := by
  obtain ⟨S', hk⟩ := J.sep.step i (O' := Bytes.Own ρ t.heap) (m' := mem'.block)
    (fun x hx => H.own_frame hx)
    (fun x hx => (H.own_live hx).choose_spec.2)
    (fun x hx => by rw [(H.own_live hx).choose_spec.1]; simp)
  refine ⟨S', H.fin, fun j hj x hx => ?_, fun j => ?_⟩
  · by_cases e : j = i
    · simp only [upd, if_pos e] at hj hx
      obtain ⟨a, n, hn, -⟩ := hx
      rw [hgone hj a] at hn
      cases hn
    · simp only [upd, if_neg e] at hj hx
      exact J.gone j hj x hx
  · by_cases e : j = i
    · subst e
      intro Hd he
      simp only [upd, if_true] at he
      obtain ⟨h, e1, T, U⟩ := hheld Hd he
      exact ⟨h, ρ, _, t, by simp only [upd, if_true, e1], T, by simp only [upd, if_true], U⟩
    · exact (J.holds j).keep (by simp only [upd, if_neg e]) (by simp only [upd, if_neg e])
        (by simp only [upd, if_neg e]) (hk j e) H.fin

/-- What `materialize` gives. -/
theorem source_rep {S C : Type} {I : Impl S C α} {s : S} {M : Nat → Option α} {g : Grade}
    (h : Source I s M g) (hN : I.N = 1) (h9 : I.D ≤ 9) (hc : card (64 ^ I.D) M < 2 ^ 32) :
    ∃ t, materialize I s = .ok t ∧ Graded t ⟨g, I.D, restrict (64 ^ I.D) M⟩ := by
  have hcr : card (64 ^ I.D) (restrict (64 ^ I.D) M) < 2 ^ 32 := by rw [card_restrict]; exact hc
  have hW : width I.N = 64 := by rw [hN]; rfl
  have hout : ∀ k, 64 ^ I.D ≤ k → restrict (64 ^ I.D) M k = none := fun k hk => by
    rw [restrict, if_neg (by omega)]
  cases h with
  | exact hT hex =>
    obtain ⟨T, K, L, hM⟩ := hT
    have X : Src I s T K (restrict (64 ^ I.D) M) := by
      refine ⟨L, hN, h9, fun i hi => ?_, hcr⟩
      have := hM i (by rw [hW]; exact hi)
      rw [hW] at this
      rw [this, restrict, if_pos hi]
    obtain ⟨t, e, R, -, -⟩ := materialize_exact X hex hout
    exact ⟨t, e, ⟨L.cfg.depth, h9⟩, hcr, R⟩
  | loose hT hex =>
    obtain ⟨T, K, L, hM⟩ := hT
    have X : Src { I with exact := false } s T K (restrict (64 ^ I.D) M) := by
      refine ⟨L, hN, h9, fun i hi => ?_, hcr⟩
      have := hM i (by
        show i < width I.N ^ I.D
        rw [hW]; exact hi)
      change T.content (path (width I.N) I.D i) = _ at this
      rw [hW] at this
      exact this.trans (by rw [restrict, if_pos (show i < 64 ^ I.D from hi)])
    have hasE : asExact { I with exact := false } = I := by
      cases I
      simp only at hex
      subst hex
      rfl
    obtain ⟨t, e, R, -, -⟩ := materialize_any X hout
    rw [hasE] at e
    exact ⟨t, e, ⟨L.cfg.depth, h9⟩, hcr, R⟩
  | inexact hT hex hne =>
    rcases contract_materialize hT hN hex h9 hc with ⟨t, e, -⟩ | ⟨-, h2, he⟩
    · obtain ⟨loc, K, S', -, -⟩ := mat_parts hT hN hex h9 hc e
      obtain ⟨_, _, L, _⟩ := hT
      exact ⟨t, e, ⟨L.cfg.depth, h9⟩, hcr, loc, K, S'⟩
    · obtain ⟨k, hk, hv⟩ := hne h2
      exact absurd (he k hk) hv

/-- A supported operation. -/
theorem graded_step {t : DT α} {g g' : Grade} {D : Nat} {M : Nat → Option α} (U : Graded t ⟨g, D, M⟩)
    {o : Op α} (ho : LaterHistory D M [o]) (ha : Allowed M o g g') :
    ∃ t', step D t o = .ok (t', (o.spec M).2) ∧ Graded t' ⟨g', D, (o.spec M).1⟩ := by
  obtain ⟨⟨h1, h9⟩, -, R⟩ := U
  have hc : card (64 ^ D) (o.spec M).1 < 2 ^ 32 := ho.bounded.2
  have hr : o.InRange (64 ^ D) := ho.inRange o (by simp)
  have hd : o.OkDepth D := by
    cases o with
    | remove k => exact ho.removeDepth k (by simp)
    | _ => exact h1
  cases ha with
  | full =>
    obtain ⟨t', e, R'⟩ := step_spec (show DRep AllNodes D t M from R) hd h9 hr hc
    exact ⟨t', e, ⟨h1, h9⟩, hc, R'⟩
  | loose =>
    obtain ⟨t', e, R'⟩ := step_spec (show DRep NoNode D t M from R) hd h9 hr hc
    exact ⟨t', e, ⟨h1, h9⟩, hc, R'⟩
  | block hk =>
    have R : DRep NoNode D (fixT t) M := R
    obtain ⟨t1, e, R'⟩ := step_spec R hd h9 hr hc
    rw [step_fix R hd h9 hr hk] at e
    obtain ⟨⟨t', out⟩, e2, e3⟩ := map_eq_ok e
    simp only [Prod.mk.injEq] at e3
    rw [← e3.1] at R'
    exact ⟨t', by rw [e2, e3.2], ⟨h1, h9⟩, hc, R'⟩
  | damage hg =>
    obtain ⟨t', e, R'⟩ := Weak.step_spec (Weak.DRep.of_fix (show DRep NoNode D (fixT t) M from R)) hd h9
      hr hg hc
    exact ⟨t', e, ⟨h1, h9⟩, hc, R'⟩
  | damaged hg =>
    obtain ⟨t', e, R'⟩ := Weak.step_spec (show Weak.DRep D t M from R) hd h9 hr hg hc
    exact ⟨t', e, ⟨h1, h9⟩, hc, R'⟩

/-- A panicking `get_or_insert`. -/
theorem graded_panic {t : DT α} {g : Grade} {D : Nat} {M : Nat → Option α} (U : Graded t ⟨g, D, M⟩)
    (hg : g = .full ∨ g = .loose) {k : Nat} (hk : k < 64 ^ D) :
    ∃ t', getOrInsertPanic D t k = .ok (t', M k) ∧ Graded t' ⟨.loose, D, M⟩ := by
  obtain ⟨⟨h1, h9⟩, hc, R⟩ := U
  have R : DRep NoNode D t M := by
    rcases hg with rfl | rfl
    · exact DRep.weaken (show DRep AllNodes D t M from R)
    · exact R
  obtain ⟨t', e, R'⟩ := getOrInsertPanic_spec R h1 h9 hk
  exact ⟨t', e, ⟨h1, h9⟩, hc, R'.weaken⟩

/-- Dropping. -/
theorem graded_drop {t : DT α} {H : Held α} (U : Graded t H) :
    ∃ vs heap', dropImpl H.D t = .ok (vs, heap') ∧ List.Perm vs (valuesOf (64 ^ H.D) H.map) ∧
      ∀ a, heap'.node a = none := by
  obtain ⟨g, D, M⟩ := H
  obtain ⟨⟨h1, h9⟩, -, R⟩ := U
  cases g with
  | full => exact dropImpl_spec (show DRep AllNodes D t M from R) h1
  | loose => exact dropImpl_spec (show DRep NoNode D t M from R) h1
  | block =>
    obtain ⟨vs, heap', d1, d2, d3⟩ := dropImpl_spec (show DRep NoNode D (fixT t) M from R) h1
    obtain ⟨heap'', d4, d5⟩ := dropImpl_unfix d1 d3
    exact ⟨vs, heap'', d4, d2, d5⟩
  | damaged => exact Weak.dropImpl_spec (show Weak.DRep D t M from R) h1

/-- Reading. -/
theorem graded_reads {t : DT α} {g : Grade} {D : Nat} {M : Nat → Option α} (U : Graded t ⟨g, D, M⟩) :
    (g = .full → IsTreeC (impl α D) t M) ∧ (g ≠ .damaged → IsTreeC (denseInexact α D) t M) ∧
    (∀ k, k < 64 ^ D → Occupied M (k / 64) → (impl α D).get t k = .ok (M k)) ∧
    ∃ F, ∀ fuel, F ≤ fuel → ∀ n, (impl α D).iterRun t fuel n =
      .ok ((List.range n).map (fun k => (listing (64 ^ D) M)[k]?)) := by
  obtain ⟨⟨h1, h9⟩, hc, R⟩ := U
  have hlater : LaterHistory D M ([] : List (Op α)) :=
    ⟨fun _ h => (nomatch h), hc, fun _ h => (nomatch h)⟩
  have hw : ∀ t, Weak.DRep D t M →
      (∀ k, k < 64 ^ D → Occupied M (k / 64) → (impl α D).get t k = .ok (M k)) ∧
      ∃ F, ∀ fuel, F ≤ fuel → ∀ n, (impl α D).iterRun t fuel n =
        .ok ((List.range n).map (fun k => (listing (64 ^ D) M)[k]?)) := by
    intro t R
    obtain ⟨t', e, g1, g2, -⟩ := growUsable_of_rep h1 h9 R [] hlater trivial
    cases e
    exact ⟨g1, g2⟩
  have hr : IsTreeC (denseInexact α D) t M →
      (∀ k, k < 64 ^ D → Occupied M (k / 64) → (impl α D).get t k = .ok (M k)) ∧
      ∃ F, ∀ fuel, F ≤ fuel → ∀ n, (impl α D).iterRun t fuel n =
        .ok ((List.range n).map (fun k => (listing (64 ^ D) M)[k]?)) := by
    intro h
    obtain ⟨g1, F, g2⟩ := getIterIs_inexact (I := impl α D) h.isTree
    refine ⟨fun k hk _ => g1 k hk ?_, F, g2⟩
    have : 64 ^ D ≤ 64 ^ 9 := Nat.pow_le_pow_right (by decide) h9
    have : (64 : Nat) ^ 9 < 2 ^ 64 - 1 := by decide
    omega
  cases g with
  | full =>
    have hf := isTreeC_of_rep h1 h9 (show DRep AllNodes D t M from R)
    have hi := isTreeC_withdraw hf
    exact ⟨fun _ => hf, fun _ => hi, hr hi⟩
  | loose =>
    have hi := isTreeC_inexact h1 h9 (show DRep NoNode D t M from R)
    exact ⟨fun e => (nomatch e), fun _ => hi, hr hi⟩
  | block =>
    obtain ⟨t', e, hi, -⟩ := blockUsable_of_rep h1 h9 (show DRep NoNode D (fixT t) M from R) [] hlater
      trivial
    cases e
    exact ⟨fun e => (nomatch e), fun _ => hi, hr hi⟩
  | damaged => exact ⟨fun e => (nomatch e), fun e => absurd rfl e, hw t R⟩

theorem card_emptyMap (n : Nat) : card n (emptyMap : Nat → Option α) = 0 := by
  simp [card, keysOf, emptyMap]

theorem handle_tree (bt : Bytes.BT α) : (handle bt).tree bt.heap = bt := rfl

theorem Inv.outside_new {W : World α} {A : Meaning α} {O : Nat → Nat → Prop} (J : Inv W A O) {i : Nat}
    (hi : A.maps i = none) : Bytes.outside (O i) W.mem.block = W.mem.block :=
  funext fun x => Bytes.outside_out (J.gone i hi x)

/-- The tree in variable `i`, with everything else as the rest of memory. -/
theorem Inv.tree {W : World α} {A : Meaning α} {O : Nat → Nat → Prop} (J : Inv W A O) {i : Nat}
    {H : Held α} (hi : A.maps i = some H) : ∃ h ρ, ∃ t : DT α, W.trees i = some h ∧
      Bytes.TRep ρ (Bytes.outside (O i) W.mem.block) t (h.tree W.mem) ∧ Graded t H := by
  obtain ⟨h, ρ, F, t, e, T, eO, U⟩ := J.holds i H hi
  refine ⟨h, ρ, t, e, ⟨?_, T.root, T.data, T.keys⟩, U⟩
  rw [eO]
  exact T.heap.keep (fun _ _ => rfl) J.fin

theorem reach_inv {W : World α} {A : Meaning α} (h : Reach W A) : ∃ O, Inv W A O := by
  induction h with
  | start hf =>
    refine ⟨fun _ _ => False, ⟨?_, fun _ _ _ h => h.elim, fun _ _ h => h.elim, fun _ _ => rfl⟩, hf,
      fun _ _ _ h => h, fun i H e => (by cases e)⟩
    intro _ _ h; exact h.elim
  | @new W A i D bt _ hi h1 h9 e ih =>
    obtain ⟨O, J⟩ := ih
    obtain ⟨t0, e0, R0⟩ := default_rep α h1 h9
    obtain ⟨bt', e', ρ, T⟩ := Bytes.default_sim D J.fin t0 e0
    rw [e] at e'
    cases e'
    rw [← J.outside_new hi] at T
    refine ⟨_, J.treeStep i T.heap (fun e => by cases e) fun H' e' => ?_⟩
    cases e'
    exact ⟨_, rfl, T, ⟨h1, h9⟩, by rw [card_emptyMap]; decide, R0⟩
  | @materialize W A i bt g S C I s M _ hi hS hN h9 hc e ih =>
    obtain ⟨O, J⟩ := ih
    obtain ⟨t0, e0, U⟩ := source_rep hS hN h9 hc
    obtain ⟨bt', e', ρ, T⟩ := Bytes.materialize_sim I s J.fin t0 e0
    rw [e] at e'
    cases e'
    rw [← J.outside_new hi] at T
    refine ⟨_, J.treeStep i T.heap (fun e => by cases e) fun H' e' => ?_⟩
    cases e'
    exact ⟨_, rfl, T, U⟩
  | @op W A i g g' D M h bt out o _ hi hh ho ha e ih =>
    obtain ⟨O, J⟩ := ih
    obtain ⟨h', ρ, t, eh, T, U⟩ := J.tree hi
    rw [hh] at eh
    cases eh
    obtain ⟨t', e1, U'⟩ := graded_step U ho ha
    obtain ⟨⟨bt', out'⟩, e', ρ', -, T', -⟩ := Bytes.step_sim D T o _ e1
    rw [e] at e'
    cases e'
    refine ⟨_, J.treeStep i T'.heap (fun e => by cases e) fun H' e' => ?_⟩
    cases e'
    exact ⟨_, rfl, T', U'⟩
  | @panics W A i g D M h bt out k _ hi hh hg hk e ih =>
    obtain ⟨O, J⟩ := ih
    obtain ⟨h', ρ, t, eh, T, U⟩ := J.tree hi
    rw [hh] at eh
    cases eh
    obtain ⟨t', e1, U'⟩ := graded_panic U hg hk
    obtain ⟨⟨bt', out'⟩, e', ρ', -, T', -⟩ := Bytes.getOrInsertPanic_sim D T k _ e1
    rw [e] at e'
    cases e'
    refine ⟨_, J.treeStep i T'.heap (fun e => by cases e) fun H' e' => ?_⟩
    cases e'
    exact ⟨_, rfl, T', U'⟩
  | @drop W A i H h vs mem' hr hi hh e ih =>
    obtain ⟨O, J⟩ := ih
    obtain ⟨h', ρ, t, eh, T, U⟩ := J.tree hi
    rw [hh] at eh
    cases eh
    obtain ⟨vs', heap', ed, -, hgone⟩ := graded_drop U
    obtain ⟨⟨vs2, mem2⟩, e', -, H⟩ := Bytes.dropImpl_sim _ T _ ed
    rw [e] at e'
    cases e'
    exact ⟨_, J.treeStep i (t := { t with heap := heap' }) H (fun _ => hgone) fun H' e' => (by cases e')⟩
  | @alloc W A b _ ih =>
    obtain ⟨O, J⟩ := ih
    have hfree : W.mem.block (W.mem.alloc b).2 = none := W.mem.allocator.free _ _ _ J.fin
    have hne : ∀ i x, O i x → x ≠ (W.mem.alloc b).2 := fun i x hx e => by
      rw [← e] at hfree
      exact J.sep.live i x hx hfree
    have hk : ∀ i x, O i x → (W.mem.alloc b).1.block x = W.mem.block x := fun i x hx => by
      show (if x = _ then _ else _) = _
      exact if_neg (hne i x hx)
    have hf : Bytes.Finite (W.mem.alloc b).1.block := by
      obtain ⟨B, hB⟩ := J.fin
      refine ⟨max B ((W.mem.alloc b).2 + 1), fun x hx => ?_⟩
      show (if x = (W.mem.alloc b).2 then _ else _) = _
      rw [if_neg (by omega)]
      exact hB x (by omega)
    refine ⟨O, J.sep.envStep (fun i x hx => ⟨hk i x hx, ?_⟩) (fun x hx => ?_), hf, J.gone,
      fun i => (J.holds i).keep rfl rfl rfl (hk i) hf⟩
    · show (if x = _ then _ else _) = _
      rw [if_neg (hne i x hx)]
      exact J.sep.env i x hx
    · show (if x = (W.mem.alloc b).2 then _ else _) = if x = (W.mem.alloc b).2 then _ else _
      by_cases e : x = (W.mem.alloc b).2
      · rw [if_pos e, if_pos e]
      · rw [if_neg e, if_neg e]; exact J.sep.rest x hx
  | @write W A y b0 b _ hy ih =>
    obtain ⟨O, J⟩ := ih
    have hne : ∀ i x, O i x → x ≠ y := fun i x hx e => by
      subst e
      rw [J.sep.env i x hx] at hy
      cases hy
    have hk : ∀ i x, O i x → (W.mem.put y b).block x = W.mem.block x := fun i x hx =>
      if_neg (hne i x hx)
    have hf : Bytes.Finite (W.mem.put y b).block := by
      obtain ⟨B, hB⟩ := J.fin
      refine ⟨max B (y + 1), fun x hx => ?_⟩
      show (if x = y then _ else _) = _
      rw [if_neg (by omega)]
      exact hB x (by omega)
    refine ⟨O, J.sep.envStep (fun i x hx => ⟨hk i x hx, ?_⟩) (fun x hx => ?_), hf, J.gone,
      fun i => (J.holds i).keep rfl rfl rfl (hk i) hf⟩
    · show (if x = _ then _ else _) = _
      rw [if_neg (hne i x hx)]
      exact J.sep.env i x hx
    · show (if x = y then _ else _) = if x = y then _ else _
      by_cases e : x = y
      · rw [if_pos e, if_pos e]
      · rw [if_neg e, if_neg e]; exact J.sep.rest x hx
  | @free W A y b mem' _ hy e ih =>
    obtain ⟨O, J⟩ := ih
    have hne : ∀ i x, O i x → x ≠ y := fun i x hx e => by
      subst e
      rw [J.sep.env i x hx] at hy
      cases hy
    have hmem : mem'.block = fun x => if x = y then none else W.mem.block x := by
      unfold Bytes.BHeap.dealloc at e
      rw [J.sep.rest y fun i hi => hne i y hi rfl, hy] at e
      simp only [unwrapU, bind_ok, if_true] at e
      cases e
      rfl
    have hk : ∀ i x, O i x → mem'.block x = W.mem.block x := fun i x hx => by
      rw [hmem]; exact if_neg (hne i x hx)
    have hf : Bytes.Finite mem'.block := by
      obtain ⟨B, hB⟩ := J.fin
      refine ⟨B, fun x hx => ?_⟩
      rw [hmem]
      show (if x = y then _ else _) = _
      rw [hB x hx, ite_self]
    refine ⟨O, J.sep.envStep (fun i x hx => ⟨hk i x hx, ?_⟩) (fun x hx => ?_), hf, J.gone,
      fun i => (J.holds i).keep rfl rfl rfl (hk i) hf⟩
    · show (if x = _ then _ else _) = _
      rw [if_neg (hne i x hx)]
      exact J.sep.env i x hx
    · rw [hmem]
      show (if x = y then _ else _) = if x = y then _ else _
      by_cases e : x = y
      · rw [if_pos e, if_pos e]
      · rw [if_neg e, if_neg e]; exact J.sep.rest x hx

/-! ## The property -/

/-- **C65**, the trees: in every reachable state each tree is its own map, whatever happened to the
others and in the rest of the memory. It obeys the trait contract (apart from exactness, unless it is
`full`; a `damaged` tree: `get` in occupied blocks), `get` and iteration read its map, every operation it supports
succeeds and returns what it returns on the map, a panic of `T::default()` leaves the map as it is, and the
tree can be dropped, which drops exactly its values. -/
theorem C65_trees {W : World α} {A : Meaning α} (h : Reach W A) {i D : Nat} {g : Grade}
    {M : Nat → Option α} (hi : A.maps i = some ⟨g, D, M⟩) : ∃ t, W.trees i = some t ∧
      (g = .full → IsTreeC (Bytes.impl α D) (t.tree W.mem) M) ∧
      (g ≠ .damaged → IsTreeC (bytesInexact α D) (t.tree W.mem) M ∧
        GetIterIs (Bytes.impl α D) (t.tree W.mem) M) ∧
      (∀ k, k < 64 ^ D → Occupied M (k / 64) → (Bytes.impl α D).get (t.tree W.mem) k = .ok (M k)) ∧
      (∃ F, ∀ fuel, F ≤ fuel → ∀ n, (Bytes.impl α D).iterRun (t.tree W.mem) fuel n =
        .ok ((List.range n).map (fun k => (listing (64 ^ D) M)[k]?))) ∧
      (∀ o g', LaterHistory D M [o] → Allowed M o g g' →
        ∃ bt, Bytes.step D (t.tree W.mem) o = .ok (bt, (o.spec M).2)) ∧
      (g = .full ∨ g = .loose → ∀ k, k < 64 ^ D →
        ∃ bt, Bytes.getOrInsertPanic D (t.tree W.mem) k = .ok (bt, M k)) ∧
      ∃ vs mem', Bytes.dropImpl D (t.tree W.mem) = .ok (vs, mem') ∧
        List.Perm vs (valuesOf (64 ^ D) M) := by
  obtain ⟨O, J⟩ := reach_inv h
  obtain ⟨hd, ρ, t, eh, T, U⟩ := J.tree hi
  obtain ⟨vs, heap', ed, hp, hgone⟩ := graded_drop U
  obtain ⟨hc, hx, hg, F, hit⟩ := graded_reads U
  obtain ⟨⟨vs2, mem2⟩, e', rfl, -⟩ := Bytes.dropImpl_sim D T _ ed
  refine ⟨hd, eh, fun e => isTreeC_bytes T (hc e), fun hne => ?_, fun k hk hO => ?_,
    ⟨F, fun fuel hf n => ?_⟩, fun o g' ho ha => ?_, fun hgr k hk => ?_, vs, mem2, e', hp⟩
  · obtain ⟨TS, K, L, e⟩ := hx hne
    have hb : IsTreeC (bytesInexact α D) (hd.tree W.mem) M := ⟨TS, _, Bytes.lawfulC_sim (e := false) T L, e⟩
    exact ⟨hb, getIterIs_inexact (I := Bytes.impl α D) hb.isTree⟩
  · exact (Bytes.get_sim D T k).eq (hg k hk hO)
  · exact (Bytes.iterRun_sim D T fuel n).eq (hit fuel hf n)
  · obtain ⟨t', e1, -⟩ := graded_step U ho ha
    obtain ⟨⟨bt', out⟩, e2, ρ', -, -, q⟩ := Bytes.step_sim D T o _ e1
    simp only at q
    subst q
    exact ⟨bt', e2⟩
  · obtain ⟨t', e1, -⟩ := graded_panic U hgr hk
    obtain ⟨⟨bt', out⟩, e2, ρ', -, -, q⟩ := Bytes.getOrInsertPanic_sim D T k _ e1
    simp only at q
    subst q
    exact ⟨bt', e2⟩

/-- **C65**, the rest of the program: its blocks hold what it wrote to them; it can free them; and when
all trees have been dropped, nothing but its blocks is left in memory: no tree leaked a block. -/
theorem C65_rest {W : World α} {A : Meaning α} (h : Reach W A) :
    (∀ x b, A.own x = some b → W.mem.block x = some b ∧ ∃ mem', W.mem.dealloc x b.length = .ok mem') ∧
    ((∀ i, A.maps i = none) → W.mem.block = A.own) := by
  obtain ⟨O, J⟩ := reach_inv h
  constructor
  · intro x b hx
    have hb : W.mem.block x = some b := by
      rw [J.sep.rest x fun i hi => ?_, hx]
      rw [J.sep.env i x hi] at hx
      cases hx
    refine ⟨hb, ⟨fun y => if y = x then none else W.mem.block y, W.mem.calls, W.mem.allocator⟩, ?_⟩
    unfold Bytes.BHeap.dealloc
    rw [hb]
    simp only [unwrapU, bind_ok, if_true]
    rfl
  · intro hn
    exact funext fun x => J.sep.rest x fun i => J.gone i (hn i) x

/-- **C65**, construction: in every reachable state a further tree can be created. -/
theorem C65_create {W : World α} {A : Meaning α} (h : Reach W A) :
    (∀ D, 1 ≤ D → D ≤ 9 → ∃ bt, Bytes.default α D W.mem = .ok bt) ∧
    (∀ {S C : Type} {I : Impl S C α} {s : S} {M : Nat → Option α} {g : Grade}, Source I s M g →
      I.N = 1 → I.D ≤ 9 → card (64 ^ I.D) M < 2 ^ 32 →
      ∃ bt, Bytes.materialize I s W.mem = .ok bt) := by
  obtain ⟨O, J⟩ := reach_inv h
  constructor
  · intro D h1 h9
    obtain ⟨t0, e0, -⟩ := default_rep α h1 h9
    obtain ⟨bt, e, -⟩ := Bytes.default_sim D J.fin t0 e0
    exact ⟨bt, e⟩
  · intro S C I s M g hS hN h9 hc
    obtain ⟨t0, e0, -⟩ := source_rep hS hN h9 hc
    obtain ⟨bt, e, -⟩ := Bytes.materialize_sim I s J.fin t0 e0
    exact ⟨bt, e⟩

end

/-! ## Concrete programs -/

/-- Two trees of different depths, used in turns, and a block of the program: -/
theorem exShared : ∃ W A, Reach (α := Nat) W A ∧ A.maps 0 = some ⟨.full, 2, put emptyMap 5 (some 50)⟩ ∧
    A.maps 1 = some ⟨.full, 1, put emptyMap 5 (some 51)⟩ ∧ A.own 0 = some [.byte 43] := by
  have later : ∀ (D : Nat) (v : Nat), D = 1 ∨ D = 2 → LaterHistory D (emptyMap : Nat → Option Nat)
      [.insert 5 v] := by
    intro D v hD
    have hc : ∀ M : Nat → Option Nat, card (64 ^ D) M < 2 ^ 32 := fun M => by
      have : card (64 ^ D) M ≤ 64 ^ D := by
        have := List.length_filter_le (fun k => (M k).isSome) (List.range (64 ^ D))
        simpa [card, keysOf] using this
      rcases hD with rfl | rfl <;> omega
    refine ⟨fun op hop => ?_, ⟨hc _, hc _⟩, fun k hk => ?_⟩
    · simp only [List.mem_singleton] at hop
      subst hop
      show 5 < 64 ^ D
      rcases hD with rfl | rfl <;> decide
    · simp at hk
  have R0 := Reach.start (α := Nat) exMem_finite
  obtain ⟨t0, e0⟩ := (C65_create R0).1 2 (by decide) (by decide)
  have R1 := Reach.new R0 (i := 0) rfl (by decide) (by decide) e0
  obtain ⟨t1, e1⟩ := (C65_create R1).1 1 (by decide) (by decide)
  have R2 := Reach.new R1 (i := 1) rfl (by decide) (by decide) e1
  obtain ⟨h0, eh0, -, -, -, -, op0, -⟩ := C65_trees R2 (i := 0) rfl
  obtain ⟨u0, f0⟩ := op0 _ _ (later 2 50 (.inr rfl)) .full
  have R3 := Reach.op R2 (i := 0) rfl eh0 (later 2 50 (.inr rfl)) .full f0
  have R4 := Reach.write [.byte 43] R3 (x := 0) rfl
  obtain ⟨h1, eh1, -, -, -, -, op1, -⟩ := C65_trees R4 (i := 1) rfl
  obtain ⟨u1, f1⟩ := op1 _ _ (later 1 51 (.inl rfl)) .full
  have R5 := Reach.op R4 (i := 1) rfl eh1 (later 1 51 (.inl rfl)) .full f1
  exact ⟨_, _, R5, rfl, rfl, rfl⟩

/-- both trees hold their own value of key 5. -/
example : ∃ W A h0 h1, Reach (α := Nat) W A ∧ W.trees 0 = some h0 ∧ W.trees 1 = some h1 ∧
    (Bytes.impl Nat 2).get (h0.tree W.mem) 5 = .ok (some 50) ∧
    (Bytes.impl Nat 1).get (h1.tree W.mem) 5 = .ok (some 51) := by
  obtain ⟨W, A, R, m0, m1, -⟩ := exShared
  obtain ⟨h0, e0, c0, -⟩ := C65_trees R m0
  obtain ⟨h1, e1, c1, -⟩ := C65_trees R m1
  refine ⟨W, A, h0, h1, R, e0, e1, ?_, ?_⟩
  · rw [tree_get (c0 rfl).isTree]; exact if_pos (by decide)
  · rw [tree_get (c1 rfl).isTree]; exact if_pos (by decide)

/-- `C65_rest`, `C65_create`: after the same program has materialized `union(exD, exU)` into a third variable,
dropped all trees and freed its block, the memory is empty. -/
example : ∃ W A, Reach (α := Nat) W A ∧ (∀ i, A.maps i = none) ∧ W.mem.block = fun _ => none := by
  have R0 := Reach.start (α := Nat) exMem_finite
  obtain ⟨t0, e0⟩ := (C65_create R0).1 2 (by decide) (by decide)
  have R1 := Reach.new R0 (i := 0) rfl (by decide) (by decide) e0
  have hT := (built_isTree (.map (fun e : Option Nat × Option Nat => e.1.getD 0 + e.2.getD 0) exUnion_built)).1
  have hc : ∀ M : Nat → Option Nat, card (64 ^ 2) M < 2 ^ 32 := fun M =>
    Nat.lt_of_le_of_lt (card_le _ M) (by decide)
  obtain ⟨t1, e1⟩ := (C65_create R1).2 (.exact hT rfl) rfl (by decide) (hc _)
  have R2 := Reach.materialize R1 (i := 1) rfl (.exact hT rfl) rfl (by decide) (hc _) e1
  obtain ⟨h0, eh0, -, -, -, -, -, -, vs0, m0, d0, -⟩ := C65_trees R2 (i := 0) rfl
  have R3 := Reach.drop R2 (i := 0) rfl eh0 d0
  obtain ⟨-, m1, f1⟩ := (C65_rest R3).1 0 [.byte 42] rfl
  have R4 := Reach.free R3 rfl f1
  obtain ⟨h1, eh1, -, -, -, -, -, -, vs1, m2, d1, -⟩ := C65_trees R4 (i := 1) rfl
  have R5 := Reach.drop R4 (i := 1) rfl eh1 d1
  refine ⟨_, _, R5, ?_, ((C65_rest R5).2 ?_).trans ?_⟩
  · intro i; simp only [upd]; repeat' (first | rfl | contradiction | split)
  · intro i; simp only [upd]; repeat' (first | rfl | contradiction | split)
  · funext x
    simp only [upd, exMem]
    repeat' (first | rfl | contradiction | split)

/-- The other grades: a program materializes `intersection(exD, exU)` (mapped to one value; its content is the key 5), inserts the key 7 of
the same block, inserts the key 64 of a new block, and reads the key 65; it creates a tree in which a
`T::default()` panics, and materializes a view of that. -/
theorem exGrades : ∃ W A M0 M1, Reach (α := Nat) W A ∧ A.maps 0 = some ⟨.damaged, 2, M0⟩ ∧ M0 5 = some 58 ∧
    M0 7 = some 1 ∧ M0 64 = some 2 ∧ M0 65 = none ∧ Occupied M0 (65 / 64) ∧
    A.maps 1 = some ⟨.loose, 1, M1⟩ ∧ A.maps 2 = some ⟨.loose, 1, restrict (64 ^ 1) fun i => (M1 i).map (· + 1)⟩ := by
  have hc : ∀ (D : Nat) (M : Nat → Option Nat), D = 1 ∨ D = 2 → card (64 ^ D) M < 2 ^ 32 := fun D M hD => by
    refine Nat.lt_of_le_of_lt (card_le _ M) ?_
    rcases hD with rfl | rfl <;> decide
  have later : ∀ (D : Nat) (M : Nat → Option Nat) (k v : Nat), D = 1 ∨ D = 2 → k < 64 ^ D →
      LaterHistory D M [.insert k v] := by
    intro D M k v hD hk
    refine ⟨fun op hop => ?_, ⟨hc _ _ hD, hc _ _ hD⟩, fun k hk => ?_⟩
    · simp only [List.mem_singleton] at hop
      subst hop
      exact hk
    · simp at hk
  have hT := (built_isTree (.map (fun e : Nat × Nat => e.1 + e.2)
    (.inter (I0 := impl Nat 2) (I1 := Sparse.impl Nat 1 2) rfl rfl exD_built exU_built))).1
  have R0 := Reach.start (α := Nat) exMem_finite
  have hS : Source _ _ _ Grade.block := .inexact hT rfl fun _ => ⟨5, by decide, by decide +kernel⟩
  obtain ⟨t0, e0⟩ := (C65_create R0).2 hS rfl (by decide) (hc _ _ (.inr rfl))
  have R1 := Reach.materialize R0 (i := 0) rfl hS rfl (by decide) (hc _ _ (.inr rfl)) e0
  generalize hM : restrict (64 ^ (mapImpl (interImpl (impl Nat 2) (Sparse.impl Nat 1 2))
    fun e : Nat × Nat => e.1 + e.2).D) (fun i => (interMap exDM exUM i).map fun e => e.1 + e.2) = M at R1
  have h5 : M 5 = some 58 := by rw [← hM]; decide +kernel
  change Reach _ ⟨upd _ 0 (some ⟨.block, 2, M⟩), _⟩ at R1
  have hk7 : (Op.insert 7 1).KeepsBlocks M := by
    intro b
    constructor
    · rintro ⟨k, rfl, hk⟩
      by_cases e : k = 7
      · subst e
        exact ⟨5, rfl, by rw [h5]; simp⟩
      · exact ⟨k, rfl, by simpa [Op.spec, put, e] using hk⟩
    · rintro ⟨k, rfl, hk⟩
      refine ⟨k, rfl, ?_⟩
      by_cases e : k = 7
      · simp [Op.spec, put, e]
      · simpa [Op.spec, put, e] using hk
  obtain ⟨h0, eh0, -, -, -, -, op0, -⟩ := C65_trees R1 (i := 0) rfl
  obtain ⟨u0, f0⟩ := op0 _ _ (later 2 M 7 1 (.inr rfl) (by decide)) (.block hk7)
  have R2 := Reach.op R1 (i := 0) rfl eh0 (later 2 M 7 1 (.inr rfl) (by decide)) (.block hk7) f0
  obtain ⟨h1, eh1, -, -, -, -, op1, -⟩ := C65_trees R2 (i := 0) rfl
  obtain ⟨u1, f1⟩ := op1 _ _ (later 2 _ 64 2 (.inr rfl) (by decide)) (.damage trivial)
  have R3 := Reach.op R2 (i := 0) rfl eh1 (later 2 _ 64 2 (.inr rfl) (by decide)) (.damage trivial) f1
  obtain ⟨t2, e2⟩ := (C65_create R3).1 1 (by decide) (by decide)
  have R4 := Reach.new R3 (i := 1) rfl (by decide) (by decide) e2
  obtain ⟨h2, eh2, -, -, -, -, -, pn, -⟩ := C65_trees R4 (i := 1) rfl
  obtain ⟨u2, f2⟩ := pn (.inl rfl) 9 (by decide)
  have R5 := Reach.panics R4 (i := 1) rfl eh2 (.inl rfl) (by decide) f2
  obtain ⟨h3, eh3, -, hx, -⟩ := C65_trees R5 (i := 1) rfl
  have hV := map_isTree (I0 := bytesInexact Nat 1) (· + 1) (hx (by decide)).1.isTree
  have hS2 : Source (mapImpl (Bytes.impl Nat 1) (· + 1)) _ _ Grade.loose := .loose hV rfl
  obtain ⟨t4, e4⟩ := (C65_create R5).2 hS2 rfl (show 1 ≤ 9 by decide) (hc 1 _ (.inl rfl))
  have R6 := Reach.materialize R5 (i := 2) rfl hS2 rfl (show 1 ≤ 9 by decide) (hc 1 _ (.inl rfl)) e4
  exact ⟨_, _, _, _, R6, rfl, h5, rfl, rfl, by
    show (put (put M 7 (some 1)) 64 (some 2)) 65 = none
    simp only [put]
    rw [← hM]
    decide +kernel, ⟨64, rfl, by simp [Op.spec, put]⟩, rfl, rfl⟩

/-- The damaged tree reads as it should, next to the others. -/
example : ∃ W A h0, Reach (α := Nat) W A ∧ W.trees 0 = some h0 ∧
    (Bytes.impl Nat 2).get (h0.tree W.mem) 65 = .ok none := by
  obtain ⟨W, A, M0, M1, R, m0, -, -, -, h65, hO, -⟩ := exGrades
  obtain ⟨h0, e0, -, -, c0, -⟩ := C65_trees R m0
  exact ⟨W, A, h0, R, e0, (c0 65 (by decide) hO).trans (by rw [h65])⟩

/-- Reuse of addresses across trees: a tree of depth 2 at addresses 1 and 2, a tree of depth 1 at 3; the first is
dropped, and the second grows into address 2, then into 1. Its content is as it should be. -/
example : (do
    let m : Bytes.BHeap := ⟨fun _ => none, 0, prefer fun call => [1, 2, 3, 2, 1].getD call 9⟩
    let t0 ← Bytes.default Nat 2 m
    let (t0, _) ← Bytes.run 2 t0 [.insert 5 50]
    let t1 ← Bytes.default Nat 1 t0.heap
    let (vs, m) ← Bytes.dropImpl 2 { t0 with heap := t1.heap }
    let (t1, _) ← Bytes.run 1 { t1 with heap := m } [.insert 1 10, .insert 2 20, .insert 3 30, .insert 4 40]
    let v ← (Bytes.impl Nat 1).get t1 3
    return (vs, v, t1.root, (List.range 4).map fun x => (t1.heap.block x).isSome)) =
    .ok ([50], some 30, .heap 1, [false, true, false, false]) := by rfl

/-- `C61_bytes_materialize` of `union(exD, exU)`, mapped to one value, and `C61_bytes_materialize_inexact` of their
intersection, in a memory with a foreign block. -/
example := C61_bytes_materialize (I := mapImpl exUnion fun e => e.1.getD 0 + e.2.getD 0)
  (built_isTree (.map _ exUnion_built)).1 rfl rfl (by decide)
  (Nat.lt_of_le_of_lt (card_le _ _) (by decide)) exMem_finite

example := C61_bytes_materialize_inexact
  (I := mapImpl (interImpl (Dense.impl Nat 2) (Sparse.impl Nat 1 2)) fun e => e.1 + e.2)
  (M := fun i => (interMap exDM exUM i).map fun e => e.1 + e.2)
  (built_isTree (.map _ (.inter (I0 := impl Nat 2) (I1 := Sparse.impl Nat 1 2) rfl rfl exD_built exU_built))).1
  rfl rfl (by decide) (Nat.lt_of_le_of_lt (card_le _ _) (by decide)) ⟨5, by decide, by decide +kernel⟩ exMem_finite

end Hibit.Props
