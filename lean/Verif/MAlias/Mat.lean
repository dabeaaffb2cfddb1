import Verif.MAlias.Select
import Verif.Dense.MatLemmas
/-!
# Materializing a fold over a multi-union, with borrows and without
-/
namespace Hibit.MAlias
open Hibit Hibit.Dense
open Hibit.Typed (Rel)

section
variable {S C δ α : Type} {I : Impl S C δ} {f : List δ → α} {ss : List S}

/-- The states of the two constructions agree; at depth 3 and more no element has been stored. -/
structure MRel (D : Nat) (x : MSt (MUCursor S C) α) (y : MSt (Cursor S C) α) : Prop where
  heap : y.heap = x.heap
  cur : y.cur.cur = x.cur
  data : y.data = x.data
  keys : y.keys = x.keys
  quiet : 3 ≤ D → x.data.length = 1

theorem foldlM_sim {σ τ : Type} {deep : Prop} {Q : σ → τ → Prop} {b : σ → Nat → R σ} {b' : τ → Nat → R τ} :
    ∀ (l : List Nat) (x : σ) (y : τ), (∀ x y i, i ∈ l → Q x y → Sim deep Q (b x i) (b' y i)) → Q x y →
      Sim deep Q (l.foldlM b x) (l.foldlM b' y)
  | [], x, y, _, q => Sim.ok q
  | i :: l, x, y, hb, q => by
    rw [List.foldlM_cons, List.foldlM_cons]
    exact Sim.bind (hb x y i (by simp) q) fun x' y' q' => foldlM_sim l x' y' (fun x y j hj => hb x y j (by simp [hj])) q'

/-- The selection of `n < D`. -/
theorem matSelect_sim {x : MUCursor S C} {y : Cursor S C} {n i : Nat} (hn : n < I.D) (hc : y.cur = x) :
    Sim (3 ≤ I.D) (fun a b => a.1 = b.1 ∧ b.2.cur = a.2 ∧ (2 ≤ n → ∀ j, a.1.bit j = false))
      ((mapImpl (multiUnionImpl I) f).selectU x ss n i) ((mapImpl (impl I) f).selectU y ss n i) := by
  subst hc
  exact (select_sim (I := I) (i := i) y n).imp (fun h => ⟨by omega, h.2⟩) id

theorem word_quiet {m : Mask} {w : Word} (h : ∀ j, m.bit j = false) (e : m[0]? = some w) : Mask.ones [w] = [] := by
  rw [List.eq_nil_iff_forall_not_mem]
  intro j hj
  rw [mem_ones] at hj
  have hlt : j / 64 = 0 := by
    unfold Mask.bit at hj
    rw [List.getD_eq_getElem?_getD] at hj
    cases hd : j / 64 with
    | zero => rfl
    | succ k => rw [hd] at hj; simp at hj
  have := h j
  unfold Mask.bit at this hj
  rw [List.getD_eq_getElem?_getD, hlt] at this hj
  rw [e] at this
  simp only [Option.getD_some, List.getElem?_cons_zero] at this hj
  rw [hj] at this
  cases this

theorem terminalBody_sim (hD : ¬ 3 ≤ I.D) {x : MSt (MUCursor S C) α} {y : MSt (Cursor S C) α} {a key i : Nat} (q : MRel I.D x y) :
    Sim (3 ≤ I.D) (MRel I.D) (terminalBody (mapImpl (multiUnionImpl I) f) ss a key x i)
      (terminalBody (mapImpl (impl I) f) ss a key y i) := by
  unfold terminalBody
  have hc : (mapImpl (impl I) f).curDataU y.cur ss i = (mapImpl (multiUnionImpl I) f).curDataU x.cur ss i := by
    show ((multiUnionImpl I).curDataU y.cur.cur ss i >>= _) = _
    rw [q.cur]
    rfl
  rw [hc]
  refine Sim.same fun d _ => Sim.same fun k _ => ?_
  unfold pushData
  simp only [q.heap, q.data]
  refine Sim.same fun h _ => Sim.ok ⟨rfl, q.cur, rfl, by simp only [q.keys], fun h => absurd h hD⟩

theorem makeTerminal_sim {x : MSt (MUCursor S C) α} {y : MSt (Cursor S C) α} {w : Word} {cap key : Nat} (q : MRel I.D x y)
    (hw : 3 ≤ I.D → Mask.ones [w] = []) :
    Sim (3 ≤ I.D) (fun a b => MRel I.D a.1 b.1 ∧ a.2 = b.2)
      (makeTerminalNode (mapImpl (multiUnionImpl I) f) ss x w cap key) (makeTerminalNode (mapImpl (impl I) f) ss y w cap key) := by
  unfold makeTerminalNode
  simp only [q.heap]
  rw [traverseM_eq, traverseM_eq]
  refine Sim.bind (foldlM_sim (Q := MRel I.D) _ _ _ (fun x y i hi q => ?_) ⟨rfl, q.cur, q.data, q.keys, q.quiet⟩) fun x y q => ?_
  · refine terminalBody_sim (fun h => ?_) q
    rw [hw h] at hi
    cases hi
  · rw [q.heap]
    exact Sim.same fun h _ => Sim.ok ⟨⟨rfl, q.cur, q.data, q.keys, q.quiet⟩, rfl⟩

theorem fromExact_sim (hD1 : 1 ≤ I.D) : ∀ (left : Nat) (x : MSt (MUCursor S C) α) (y : MSt (Cursor S C) α) (i key : Nat), MRel I.D x y →
    Sim (3 ≤ I.D) (fun a b => MRel I.D a.1 b.1 ∧ a.2 = b.2)
      (fromExact (mapImpl (multiUnionImpl I) f) ss left x i key) (fromExact (mapImpl (impl I) f) ss left y i key)
  | 0, x, y, i, key, q => by
    unfold fromExact
    refine Sim.ite (fun _ => ?_) fun _ => Sim.err
    refine Sim.bind (matSelect_sim (n := I.D - 1) (by omega) q.cur) fun a b hab => ?_
    obtain ⟨m, c⟩ := a
    obtain ⟨m', c'⟩ := b
    obtain ⟨rfl, hc, hq⟩ := hab
    refine Sim.same fun w hw => Sim.same fun cap _ => ?_
    exact makeTerminal_sim ⟨q.heap, hc, q.data, q.keys, q.quiet⟩ fun h => word_quiet (hq (by omega)) (getU_inv hw)
  | left + 1, x, y, i, key, q => by
    unfold fromExact
    refine Sim.ite (fun _ => ?_) fun _ => Sim.err
    simp only
    refine Sim.bind (matSelect_sim (n := I.D - 1 - (left + 1)) (by omega) q.cur) fun a b hab => ?_
    obtain ⟨m, c⟩ := a
    obtain ⟨m', c'⟩ := b
    obtain ⟨rfl, hc, -⟩ := hab
    refine Sim.same fun w hw => Sim.same fun cap _ => ?_
    simp only [q.heap]
    rw [traverseM_eq, traverseM_eq]
    refine Sim.bind (foldlM_sim (Q := MRel I.D) _ _ _ (fun x y j _ q => ?_) ⟨rfl, hc, q.data, q.keys, q.quiet⟩) fun x y q => ?_
    · unfold exactBody
      refine Sim.same fun b _ => Sim.same fun k _ => Sim.bind (fromExact_sim hD1 left x y j k q) fun a b hab => ?_
      obtain ⟨x, c⟩ := a
      obtain ⟨y, c'⟩ := b
      obtain ⟨q, rfl⟩ := hab
      simp only
      rw [show y.heap = x.heap from q.heap]
      exact Sim.same fun h _ => Sim.ok ⟨rfl, q.cur, q.data, q.keys, q.quiet⟩
    · refine Sim.same fun e _ => ?_
      rw [q.heap]
      exact Sim.same fun h _ => Sim.ok ⟨⟨rfl, q.cur, q.data, q.keys, q.quiet⟩, rfl⟩

/-- The local variables of the two constructions agree. -/
def VRel (D : Nat) (v : SSt (MUCursor S C) α) (w : SSt (Cursor S C) α) : Prop :=
  MRel D v.st w.st ∧ w.nodeMask = v.nodeMask ∧ w.childs = v.childs

theorem fromSparse_sim (hD1 : 1 ≤ I.D) : ∀ (left : Nat) (x : MSt (MUCursor S C) α) (y : MSt (Cursor S C) α) (i key : Nat), MRel I.D x y →
    Sim (3 ≤ I.D) (fun a b => MRel I.D a.1 b.1 ∧ a.2 = b.2)
      (fromSparse (mapImpl (multiUnionImpl I) f) ss left x i key) (fromSparse (mapImpl (impl I) f) ss left y i key)
  | 0, x, y, i, key, q => by
    unfold fromSparse
    refine Sim.bind (matSelect_sim (n := I.D - 1) (by omega) q.cur) fun a b hab => ?_
    obtain ⟨m, c⟩ := a
    obtain ⟨m', c'⟩ := b
    obtain ⟨rfl, hc, hq⟩ := hab
    refine Sim.same fun w hw => Sim.same fun cap _ => ?_
    refine Sim.bind (makeTerminal_sim ⟨q.heap, hc, q.data, q.keys, q.quiet⟩ fun h => word_quiet (hq (by omega)) (getU_inv hw))
      fun a b hab => ?_
    obtain ⟨x, c⟩ := a
    obtain ⟨y, c'⟩ := b
    obtain ⟨q, rfl⟩ := hab
    exact Sim.ok ⟨q, rfl⟩
  | left + 1, x, y, i, key, q => by
    unfold fromSparse
    simp only
    refine Sim.bind (matSelect_sim (n := I.D - 1 - (left + 1)) (by omega) q.cur) fun a b hab => ?_
    obtain ⟨m, c⟩ := a
    obtain ⟨m', c'⟩ := b
    obtain ⟨rfl, hc, -⟩ := hab
    refine Sim.same fun w hw => ?_
    rw [traverseM_eq, traverseM_eq]
    refine Sim.bind (foldlM_sim (Q := VRel I.D) _ _ _ (fun v v' j _ hv => ?_) ⟨⟨q.heap, hc, q.data, q.keys, q.quiet⟩, rfl, rfl⟩)
      fun v v' hv => ?_
    · obtain ⟨q, h1, h2⟩ := hv
      unfold sparseBody
      refine Sim.same fun b _ => Sim.same fun k _ => Sim.bind (fromSparse_sim hD1 left v.st v'.st j k q) fun a b hab => ?_
      obtain ⟨x, c⟩ := a
      obtain ⟨y, c'⟩ := b
      obtain ⟨q, rfl⟩ := hab
      cases c with
      | none => exact Sim.ok ⟨q, h1, h2⟩
      | some c =>
        simp only [h1, h2]
        refine Sim.same fun r _ => Sim.ite (fun _ => Sim.ok ⟨q, rfl, rfl⟩) fun _ => Sim.err
    · obtain ⟨q, h1, h2⟩ := hv
      rw [h2]
      refine Sim.ite (fun _ => Sim.ok ⟨q, rfl⟩) fun _ => ?_
      refine Sim.same fun e _ => ?_
      simp only [h1, q.heap]
      exact Sim.ok ⟨⟨rfl, q.cur, q.data, q.keys, q.quiet⟩, rfl⟩

/-- Materializing with borrows gives what it gives without, or undefined behaviour; at depth 3 and more, only a tree without elements
is ever given. -/
theorem materialize_sim (hD1 : 1 ≤ I.D) : Sim (3 ≤ I.D) (fun a b => a = b ∧ (3 ≤ I.D → a.data.length = 1))
    (materialize (mapImpl (multiUnionImpl I) f) ss) (materialize (mapImpl (impl I) f) ss) := by
  unfold materialize
  have hnew : Sim (3 ≤ I.D) (fun a b => b.cur = a) ((mapImpl (multiUnionImpl I) f).new ss) ((mapImpl (impl I) f).new ss) := by
    show Sim _ _ _ ((multiUnionImpl I).new ss >>= _)
    show Sim _ _ ((multiUnionImpl I).new ss) _
    cases (multiUnionImpl I).new ss with
    | ok c => exact Sim.ok rfl
    | error e => exact Sim.err
  refine Sim.bind hnew fun c c' hc => ?_
  have q : MRel I.D (⟨⟨fun _ => none, 0⟩, c, [none], [usizeMod - 1]⟩ : MSt (MUCursor S C) α)
      (⟨⟨fun _ => none, 0⟩, c', [none], [usizeMod - 1]⟩ : MSt (Cursor S C) α) := ⟨rfl, hc, rfl, rfl, fun _ => rfl⟩
  have hroot : Sim (3 ≤ I.D) (fun a b => MRel I.D a.1 b.1 ∧ a.2 = b.2)
      (fromRoot (mapImpl (multiUnionImpl I) f) ss ⟨⟨fun _ => none, 0⟩, c, [none], [usizeMod - 1]⟩)
      (fromRoot (mapImpl (impl I) f) ss ⟨⟨fun _ => none, 0⟩, c', [none], [usizeMod - 1]⟩) := by
    unfold fromRoot
    refine Sim.ite (fun _ => fromExact_sim hD1 _ _ _ _ _ q) fun _ => ?_
    refine Sim.bind (fromSparse_sim hD1 _ _ _ _ _ q) fun a b hab => ?_
    obtain ⟨x, c⟩ := a
    obtain ⟨y, c'⟩ := b
    obtain ⟨q, rfl⟩ := hab
    exact Sim.same fun a _ => Sim.ok ⟨q, rfl⟩
  refine Sim.bind hroot fun a b hab => ?_
  obtain ⟨x, c⟩ := a
  obtain ⟨y, c'⟩ := b
  obtain ⟨q, rfl⟩ := hab
  refine Sim.ok ⟨?_, q.quiet⟩
  show (⟨x.heap, .heap c, x.data, x.keys⟩ : DT α) = ⟨y.heap, .heap c, y.data, y.keys⟩
  rw [q.heap, q.data, q.keys]

end

end Hibit.MAlias
