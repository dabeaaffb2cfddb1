import Verif.Borrows
import Verif.Bytes.Shared
import Verif.Props.UserTree
import Verif.Props.Bytes
/-!
# C87: operands behind `borrow()`

`Borrows S` is the sequence of trees that `borrow()` of one operand of `map`, `union` or `intersection` answers with.
Nothing obliges a safe `Borrow` to answer with the same tree every time.
-/
namespace Hibit.Props
open Hibit Hibit.Dense

section
variable {x : Bool} {S C δ : Type} {I : Impl S C δ} {b : Borrows S} {s : S} {M : Nat → Option δ}

/-- **C87, honest `Borrow` (partial)**: an operand whose `borrow()` answers with the tree `s` each time is a tree with
the content of `s`: every theorem about expressions applies to it. -/
theorem C87_always_partial (h : Built x I s M) (hb : b.Always s) : Built x (fromBorrows I) b M := by
  cases x with
  | true => exact .custom (isTreeC_docs (fromBorrows_isTreeC hb ((built_isTree h).2 rfl)))
  | false => exact .custom (isTree_docs (fromBorrows_isTree hb (built_isTree h).1))

/-- **C87, `get` (partial)**: `get` borrows each operand once, and answers for the trees it is given, whatever later calls of
`borrow()` would answer. -/
theorem C87_get_partial {S' C' δ' ε : Type} {J : Impl S' C' δ'} {b' : Borrows S'} {M' : Nat → Option δ'}
    (hN : I.N = J.N) (hD : I.D = J.D) (h : Built true I b.tree M) (h' : Built true J b'.tree M') (f : δ → ε) {i : Nat}
    (hi : i < width I.N ^ I.D) (hi' : i < 2 ^ 64 - 1) :
    (mapImpl (fromBorrows I) f).get b i = .ok ((M i).map f) ∧
    (unionImpl (fromBorrows I) (fromBorrows J)).get (b, b') i = .ok (unionMap M M' i) ∧
    (interImpl (fromBorrows I) (fromBorrows J)).get (b, b') i = .ok (interMap M M' i) :=
  ⟨(getIter (built_isTree (.map f h)).1).1 i hi hi',
    (getIter (built_isTree (.union hN hD h h')).1).1 i hi hi',
    (getIter (built_isTree (.inter hN hD h h')).1).1 i hi hi'⟩

end

section
variable {α : Type}

/-- A new, empty tree, in a memory that holds another tree: both can be used. -/
theorem two_trees {D : Nat} (h2 : 2 ≤ D) (h9 : D ≤ 9) {ρ : Bytes.Ren} {F : Bytes.Mem} {t : DT α} {a : Bytes.BT α}
    (T : Bytes.TRep ρ F t a) :
    ∃ e, Bytes.default α D a.heap = .ok e ∧ e.data = [none] ∧ IsTreeC (Bytes.impl α D) e emptyMap ∧
      ∃ F', Bytes.TRep ρ F' t { a with heap := e.heap } := by
  have h1 : 1 ≤ D := by omega
  obtain ⟨t0, e0, R0⟩ := Dense.default_rep α h1 h9
  obtain ⟨e, be, ρ', T'⟩ := Bytes.default_sim D T.heap.fin t0 e0
  refine ⟨e, be, ?_, isTreeC_bytes T' (isTreeC_of_rep h1 h9 R0), _, ⟨T.heap.keep (bh' := e.heap) ?_ T'.heap.fin, T.root,
    T.data, T.keys⟩⟩
  · unfold Bytes.default at be
    rw [if_neg (by omega)] at be
    obtain ⟨_, -, be⟩ := bind_inv be
    obtain ⟨⟨_, _⟩, -, be⟩ := bind_inv be
    cases be
    rfl
  · intro y hy
    obtain ⟨bl, hbl, -⟩ := T.heap.own_live hy
    apply T'.heap.own_frame
    intro ho
    obtain ⟨_, _, hF⟩ := T'.heap.own_live ho
    rw [hbl] at hF
    cases hF

/-- Reading an element with the data of an empty tree. -/
theorem curDataU_wrong {D : Nat} (hD : 2 ≤ D) {c : Dense.Cursor} {a e : Bytes.BT α} {i : Nat} {v : α}
    (hd : a.data[0]? = some none) (he : e.data = [none]) (hh : e.heap = a.heap)
    (h : Bytes.curDataU D c a i = .ok v) : Bytes.curDataU D c e i = .error .ub := by
  unfold Bytes.curDataU at h ⊢
  have et : Bytes.curTerminal D c e = Bytes.curTerminal D c a := by
    unfold Bytes.curTerminal
    rw [if_neg (by omega), if_neg (by omega)]
  obtain ⟨node, e1, h⟩ := bind_inv h
  obtain ⟨j, e2, h⟩ := bind_inv h
  obtain ⟨o, e3, h⟩ := bind_inv h
  rw [et, e1, hh]
  simp only [bind_ok, e2]
  have e3 := getU_inv e3
  cases j with
  | zero =>
    rw [hd] at e3
    cases e3
    cases h
  | succ j => rw [he]; rfl

/-- **C87 fails**: two DenseTrees of depth at least 2, one with elements (made by any history), the other new. Let
`borrow()` of an operand answer with the first to the cursor's `new` and selects, and with the second to
`data_unchecked`. Then both are proper trees, but the first `next()` of `iter()` over `map(operand, f)` is undefined behaviour
(`get_unchecked` outside the data of the second tree). -/
theorem C87_fails {D : Nat} {ops : List (Op α)} (h : DenseHistory D ops) (hD : 2 ≤ D)
    (hne : ∃ k, k < 64 ^ D ∧ (specRun emptyMap ops).1 k ≠ none) {m : Bytes.BHeap} (hf : Bytes.Finite m.block) :
    ∃ a0 a a' e, Bytes.default α D m = .ok a0 ∧ Bytes.run D a0 ops = .ok (a, (specRun emptyMap ops).2) ∧
      Bytes.default α D a.heap = .ok e ∧ a' = { a with heap := e.heap } ∧
      IsTreeC (Bytes.impl α D) a' (specRun emptyMap ops).1 ∧ IsTreeC (Bytes.impl α D) e emptyMap ∧
      ∀ b : Borrows (Bytes.BT α), (∀ k, b.sel k = a') → (∀ k i, b.dat k i = e) → ∀ (β : Type) (f : α → β),
        ∃ F, ∀ fuel, F ≤ fuel → ∀ n, (mapImpl (fromBorrows (Bytes.impl α D)) f).iterRun b fuel (n + 1) = .error .ub := by
  obtain ⟨t0, t, e0, et, R⟩ := h.reach
  obtain ⟨a0, b0, ρ, T0⟩ := Bytes.default_sim D hf t0 e0
  obtain ⟨⟨a, o⟩, b1, ρ', -, T, q2⟩ := Bytes.run_sim D ops T0 _ et
  simp only at T q2
  subst q2
  obtain ⟨e, be, ed, ie, F', T'⟩ := two_trees hD h.depth_le T
  have ia := isTreeC_bytes T' (isTreeC_of_rep h.depth_pos h.depth_le R)
  refine ⟨a0, a, _, e, b0, b1, be, rfl, ia, ie, fun b hs hd β f => ?_⟩
  have hdata : ({ a with heap := e.heap } : Bytes.BT α).data[0]? = some none := by
    obtain ⟨loc, K, RS⟩ := R
    rw [T'.data]
    exact RS.data.data0
  generalize ha' : ({ a with heap := e.heap } : Bytes.BT α) = a' at ia hs hdata T'
  have hh : e.heap = a'.heap := by rw [← ha']
  obtain ⟨F, hF⟩ := (getIter (fromBorrows_isTree (b := ⟨a', fun _ => a', fun _ _ => a'⟩)
    ⟨rfl, fun _ => rfl, fun _ _ => rfl⟩ ia.isTree)).2
  refine ⟨F, fun fuel hfu n => ?_⟩
  have h1 := hF fuel hfu 1
  obtain ⟨q, hq⟩ : ∃ q, (listing (width (fromBorrows (Bytes.impl α D)).N ^ (fromBorrows (Bytes.impl α D)).D)
      (specRun emptyMap ops).1)[0]? = some q := by
    obtain ⟨k, hk, hM⟩ := hne
    obtain ⟨v, hv⟩ := Option.ne_none_iff_exists'.1 hM
    have : (k, v) ∈ listing (width (fromBorrows (Bytes.impl α D)).N ^ (fromBorrows (Bytes.impl α D)).D)
        (specRun emptyMap ops).1 := by
      unfold listing
      rw [List.mem_filterMap]
      exact ⟨k, List.mem_range.2 hk, by rw [hv]; rfl⟩
    cases hl : listing (width (fromBorrows (Bytes.impl α D)).N ^ (fromBorrows (Bytes.impl α D)).D)
        (specRun emptyMap ops).1 with
    | nil => rw [hl] at this; cases this
    | cons q l => exact ⟨q, rfl⟩
  simp only [List.range_one, List.map_cons, List.map_nil, hq] at h1
  unfold Impl.iterRun at h1 ⊢
  obtain ⟨st, en, h1⟩ := bind_inv h1
  have hsel : ∀ c n i, (mapImpl (fromBorrows (Bytes.impl α D)) f).selectU c b n i =
      (fromBorrows (Bytes.impl α D)).selectU c ⟨a', fun _ => a', fun _ _ => a'⟩ n i := by
    intro c n i
    simp only [mapImpl, fromBorrows, hs]
  rw [iterNew_same (I := mapImpl (fromBorrows (Bytes.impl α D)) f)
    (I' := fromBorrows (Bytes.impl α D)) (s := b) rfl rfl
    (by simp only [mapImpl, fromBorrows, hs]) hsel, en]
  simp only [Impl.iterTake, bind_ok, Impl.iterNext] at h1 ⊢
  obtain ⟨r, er, h1⟩ := bind_inv h1
  rw [iterLoop_same (I := mapImpl (fromBorrows (Bytes.impl α D)) f)
    (I' := fromBorrows (Bytes.impl α D)) (s := b) rfl hsel fuel st]
  obtain ⟨⟨li, st'⟩, el, er⟩ := bind_inv er
  cases li with
  | none =>
    cases er
    cases h1
  | some li =>
    obtain ⟨d, ed', er⟩ := bind_inv er
    rw [el]
    simp only [bind_ok]
    have : (mapImpl (fromBorrows (Bytes.impl α D)) f).curDataU st'.cur b li = .error .ub := by
      simp only [mapImpl, fromBorrows, hd]
      have := curDataU_wrong hD hdata ed hh (show Bytes.curDataU D st'.cur.2 a' li = .ok d from ed')
      show (Bytes.curDataU D st'.cur.2 e li >>= fun d => pure (f d)) = _
      rw [this]
      rfl
    rw [this]
    rfl

/-- `C87_fails`: the history of `exD` (three elements, depth 2). -/
example : ∃ a0 a a' e, Bytes.default Nat 2 exMem = .ok a0 ∧ Bytes.run 2 a0 exOps = .ok (a, (specRun emptyMap exOps).2) ∧
      Bytes.default Nat 2 a.heap = .ok e ∧ a' = { a with heap := e.heap } ∧
      IsTreeC (Bytes.impl Nat 2) a' (specRun emptyMap exOps).1 ∧ IsTreeC (Bytes.impl Nat 2) e emptyMap ∧
      ∀ b : Borrows (Bytes.BT Nat), (∀ k, b.sel k = a') → (∀ k i, b.dat k i = e) → ∀ (β : Type) (f : Nat → β),
        ∃ F, ∀ fuel, F ≤ fuel → ∀ n, (mapImpl (fromBorrows (Bytes.impl Nat 2)) f).iterRun b fuel (n + 1) = .error .ub :=
  C87_fails exOps_history (by decide) ⟨5, by decide, by decide +kernel⟩ exMem_finite

end

/-- Two trees with the same content, made by inserting in different orders. -/
def exAB : R (DT Nat × DT Nat) := do
  let t ← Dense.default Nat 2
  let a ← run 2 t [.insert 5 50, .insert 70 700]
  let b ← run 2 t [.insert 70 700, .insert 5 50]
  return (a.1, b.1)

/-- Another failure: `borrow()` answers with trees of the same content. The iterator pairs the keys with each other's values.
(The nodes read are those of the first tree, so its memory is given to the second.) -/
example : (do
    let (a, b) ← exAB
    (mapImpl (fromBorrows (Dense.impl Nat 2)) id).iterRun ⟨a, fun _ => a, fun _ _ => { b with heap := a.heap }⟩ 20 3 : R _) =
    .ok [some (5, 700), some (70, 50), none] := by decide +kernel

/-- `C87_always_partial`, `C87_get_partial`. -/
example : Built true (fromBorrows (Dense.impl Nat 2)) ⟨exD, fun _ => exD, fun _ _ => exD⟩ exDM :=
  C87_always_partial exD_built ⟨rfl, fun _ => rfl, fun _ _ => rfl⟩

example (sel : Nat → DT Nat) (dat : Nat → Nat → DT Nat) :
    (unionImpl (fromBorrows (Dense.impl Nat 2)) (fromBorrows (Sparse.impl Nat 1 2))).get
      (⟨exD, sel, dat⟩, ⟨exU, fun _ => exU, fun _ _ => exU⟩) 5 = .ok (some (some 56, some 2)) := by
  have := (C87_get_partial (b := ⟨exD, sel, dat⟩) (b' := ⟨exU, fun _ => exU, fun _ _ => exU⟩) rfl rfl exD_built exU_built
    (id : Nat → Nat) (i := 5) (by decide) (by decide)).2.1
  rw [this]
  exact congrArg Except.ok (by decide +kernel)

end Hibit.Props
