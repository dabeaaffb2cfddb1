import Verif.Bytes.Mat
import Verif.Props.Materialize
/-!
# Property C61: DenseTree over raw memory

`Bytes.default`, `Bytes.run`, `Bytes.impl`, `Bytes.dropImpl`, `Bytes.materialize` (`Verif/Bytes/Model.lean`,
`Verif/Bytes/Mat.lean`) execute the code on blocks of bytes. There an access that is not aligned, not
inside its allocation, of uninitialised bytes or of bytes of another type, a `dealloc` or `realloc` with
another layout than the one of the allocation, and a use of a freed block all return `ub`. The
theorems hold whatever else is in memory and whatever address the allocator gives to each new block,
including addresses of freed blocks.
-/
namespace Hibit.Props
open Hibit Hibit.Dense

section
variable {α : Type} {S C : Type}

/-- The DenseTree `bt` in raw memory holds the map `M`: every further supported history returns what
it returns on the map, then `get` and iteration are the map's, the tree obeys the trait contract, and
dropping it drops exactly the stored values and leaves the memory `F`. -/
def UsableBytes (F : Bytes.Mem) (D : Nat) (bt : Bytes.BT α) (M : Nat → Option α) : Prop :=
  ∀ ops, LaterHistory D M ops → ∃ bt', Bytes.run D bt ops = .ok (bt', (specRun M ops).2) ∧
    IsTreeC (Bytes.impl α D) bt' (specRun M ops).1 ∧
    GetIterIs (Bytes.impl α D) bt' (specRun M ops).1 ∧
    ∃ vs heap', Bytes.dropImpl D bt' = .ok (vs, heap') ∧
      List.Perm vs (valuesOf (64 ^ D) (specRun M ops).1) ∧ heap'.block = F

/-- `DenseTree` over byte memory with `EXACT_HIERARCHY = false`; nothing else is changed. -/
def bytesInexact (α : Type) (D : Nat) : Impl (Bytes.BT α) Cursor α := { Bytes.impl α D with exact := false }

/-- As `UsableBytes`, for histories whose operations leave the set of occupied aligned blocks of 64 keys unchanged
(`KeepsBlocks`), and without the claim of exactness. -/
def BlockUsableBytes (F : Bytes.Mem) (D : Nat) (bt : Bytes.BT α) (M : Nat → Option α) : Prop :=
  ∀ ops, LaterHistory D M ops → KeepsBlocks M ops →
    ∃ bt', Bytes.run D bt ops = .ok (bt', (specRun M ops).2) ∧
    IsTreeC (bytesInexact α D) bt' (specRun M ops).1 ∧
    GetIterIs (Bytes.impl α D) bt' (specRun M ops).1 ∧
    ∃ vs heap', Bytes.dropImpl D bt' = .ok (vs, heap') ∧
      List.Perm vs (valuesOf (64 ^ D) (specRun M ops).1) ∧ heap'.block = F

variable {ρ : Bytes.Ren} {F : Bytes.Mem}

theorem isTreeC_bytes {D : Nat} {t : DT α} {bt : Bytes.BT α} {M : Nat → Option α}
    (T : Bytes.TRep ρ F t bt) (h : IsTreeC (impl α D) t M) : IsTreeC (Bytes.impl α D) bt M := by
  obtain ⟨TS, K, L, e⟩ := h
  exact ⟨TS, _, Bytes.lawfulC_sim (e := true) T L, e⟩

theorem usable_bytes {D : Nat} {t : DT α} {bt : Bytes.BT α} {M : Nat → Option α}
    (T : Bytes.TRep ρ F t bt) (h : UsableDense D t M) : UsableBytes F D bt M := by
  intro ops ho
  obtain ⟨t', e, ht, -, -, vs, heap', ed, hp, hf⟩ := h ops ho
  obtain ⟨⟨bt', o⟩, be, ρ', -, q1, q2⟩ := Bytes.run_sim D ops T _ e
  simp only at q1 q2
  subst q2
  obtain ⟨⟨vs', bheap'⟩, bd, q3, q4⟩ := Bytes.dropImpl_sim D q1 _ ed
  simp only at q3 q4
  subst q3
  have hb := isTreeC_bytes q1 ht
  exact ⟨bt', be, hb, getIter hb.isTree, vs, bheap', bd, hp, q4.gone hf⟩

theorem blockUsable_bytes {D : Nat} {t : DT α} {bt : Bytes.BT α} {M : Nat → Option α}
    (T : Bytes.TRep ρ F t bt) (h : BlockUsableDense D t M) : BlockUsableBytes F D bt M := by
  intro ops ho hb
  obtain ⟨t', e, ht, -, -, vs, heap', ed, hp, hf⟩ := h ops ho hb
  obtain ⟨⟨bt', o⟩, be, ρ', -, q1, q2⟩ := Bytes.run_sim D ops T _ e
  simp only at q1 q2
  subst q2
  obtain ⟨⟨vs', bheap'⟩, bd, q3, q4⟩ := Bytes.dropImpl_sim D q1 _ ed
  simp only at q3 q4
  subst q3
  obtain ⟨TS, K, L, e⟩ := ht
  have hb : IsTreeC (bytesInexact α D) bt' (specRun M ops).1 :=
    ⟨TS, _, Bytes.lawfulC_sim (e := false) q1 L, e⟩
  refine ⟨bt', be, hb, ?_, vs, bheap', bd, hp, q4.gone hf⟩
  obtain ⟨g1, F', g2⟩ := getIter hb.isTree
  refine ⟨g1, F', fun fuel hf n => ?_⟩
  rw [← iterRun_exact_irrel false]
  exact g2 fuel hf n

/-- **C61**: in any memory, with any allocator, every supported history on a new DenseTree runs without
undefined behaviour or panic, each call returns what it returns on the map, and the resulting tree is
usable: reads, iteration and cursors give the map, further histories behave as the map, and dropping it
drops the stored values and leaves the memory exactly as it was before the tree was created. -/
theorem C61_bytes {D : Nat} {ops : List (Op α)} (h : DenseHistory D ops) {m : Bytes.BHeap}
    (hf : Bytes.Finite m.block) :
    ∃ bt0 bt, Bytes.default α D m = .ok bt0 ∧
      Bytes.run D bt0 ops = .ok (bt, (specRun emptyMap ops).2) ∧
      UsableBytes m.block D bt (specRun emptyMap ops).1 := by
  obtain ⟨t0, t, e0, e, R⟩ := h.reach
  obtain ⟨bt0, b0, ρ, T0⟩ := Bytes.default_sim D hf t0 e0
  obtain ⟨⟨bt, o⟩, b1, ρ', -, q1, q2⟩ := Bytes.run_sim D ops T0 _ e
  simp only at q1 q2
  subst q2
  exact ⟨bt0, bt, b0, b1, usable_bytes q1 (usable_of_rep h.depth_pos h.depth_le R)⟩

/-- An operation with an out-of-range key panics before it touches memory. -/
theorem bytes_out_of_range {D : Nat} (h9 : D ≤ 9) (bt : Bytes.BT α) {op : Op α}
    (h : ¬ op.InRange (64 ^ D)) : Bytes.step D bt op = .error .panic := by
  cases op with
  | insert k v =>
    have h : ¬ k < 64 ^ D := h
    simp only [Bytes.step, Bytes.insert, indexFrom_ok h9, if_neg h, bind_err]
  | getOrInsert k d g =>
    have h : ¬ k < 64 ^ D := h
    simp only [Bytes.step, Bytes.getOrInsert, indexFrom_ok h9, if_neg h, bind_err]
  | remove k =>
    have h : ¬ k < 64 ^ D := h
    simp only [Bytes.step, Bytes.remove, indexFrom_ok h9, if_neg h, bind_err]
  | get k =>
    have h : ¬ k < 64 ^ D := h
    simp only [Bytes.step, Impl.get]
    show ((indexFrom 1 D k) >>= _) >>= _ = _
    rw [indexFrom_ok h9, if_neg h]
    rfl
  | mutValues g => exact absurd trivial h

/-- **C61**, memory safety: with arbitrary `usize` keys, in range or not, no history of depth ≥ 2 has
undefined behaviour in raw memory: it runs to the end or stops with the panic of an out-of-range key. -/
theorem C61_bytes_safe {D : Nat} (h2 : 2 ≤ D) (h9 : D ≤ 9) (ops : List (Op α))
    (hb : Bounded (64 ^ D) (2 ^ 32) emptyMap ops) {m : Bytes.BHeap} (hf : Bytes.Finite m.block) :
    ∃ bt0, Bytes.default α D m = .ok bt0 ∧ ∀ e, Bytes.run D bt0 ops = .error e →
      e = .panic ∧ ∃ op ∈ ops, ¬ op.InRange (64 ^ D) := by
  obtain ⟨t0, e0, R0⟩ := default_rep α (by omega) h9
  obtain ⟨bt0, b0, ρ0, T0⟩ := Bytes.default_sim D hf t0 e0
  refine ⟨bt0, b0, ?_⟩
  have key : ∀ (ops : List (Op α)) (ρ : Bytes.Ren) (t : DT α) (bt : Bytes.BT α) (M : Nat → Option α),
      Bytes.TRep ρ m.block t bt → DRep AllNodes D t M → Bounded (64 ^ D) (2 ^ 32) M ops →
      ∀ e, Bytes.run D bt ops = .error e → e = .panic ∧ ∃ op ∈ ops, ¬ op.InRange (64 ^ D) := by
    intro ops
    induction ops with
    | nil => intro ρ t bt M _ _ _ e he; cases he
    | cons op ops ih =>
      intro ρ t bt M T R hb e he
      by_cases hr : op.InRange (64 ^ D)
      · have hok : op.OkDepth D := by cases op <;> simp only [Op.OkDepth] <;> omega
        have hb2 : Bounded (64 ^ D) (2 ^ 32) (op.spec M).1 ops := hb.2
        have hroom : card (64 ^ D) (op.spec M).1 < 2 ^ 32 := by
          cases ops with
          | nil => exact hb2
          | cons _ _ => exact hb2.1
        obtain ⟨t', e1, R'⟩ := step_spec R hok h9 hr hroom
        obtain ⟨⟨bt', o⟩, be, ρ', -, q1, q2⟩ := Bytes.step_sim D T op _ e1
        simp only at q1 q2
        subst q2
        unfold Bytes.run at he
        rw [be, bind_ok] at he
        simp only at he
        cases hrun : Bytes.run D bt' ops with
        | error e' =>
          rw [hrun] at he
          cases he
          obtain ⟨g1, op', g2, g3⟩ := ih ρ' t' bt' _ q1 R' hb2 e hrun
          exact ⟨g1, op', List.mem_cons_of_mem _ g2, g3⟩
        | ok r => rw [hrun] at he; cases he
      · unfold Bytes.run at he
        rw [bytes_out_of_range h9 bt hr] at he
        cases he
        exact ⟨rfl, op, List.mem_cons_self, hr⟩
  exact key ops ρ0 t0 bt0 emptyMap T0 R0 hb

/-- **C61**, `materialize` of a tree with exact hierarchy: in raw memory it has no undefined
behaviour and gives a usable tree with the source's content. -/
theorem C61_bytes_materialize {I : Impl S C α} {s : S} {M : Nat → Option α} (h : IsTree I s M)
    (hN : I.N = 1) (hex : I.exact = true) (h9 : I.D ≤ 9) (hroom : card (64 ^ I.D) M < 2 ^ 32)
    {m : Bytes.BHeap} (hf : Bytes.Finite m.block) :
    ∃ bt, Bytes.materialize I s m = .ok bt ∧
      (∀ k, (Bytes.impl α I.D).get bt k = I.get s k) ∧
      UsableBytes m.block I.D bt (restrict (64 ^ I.D) M) := by
  obtain ⟨t, e, hg, -, -, hu⟩ := contract_materialize_exact h hN hex h9 hroom
  obtain ⟨bt, be, ρ, T⟩ := Bytes.materialize_sim I s hf t e
  refine ⟨bt, be, fun k => ?_, usable_bytes T hu⟩
  have hu' := usable_bytes T hu []
  obtain ⟨bt', e', ht', -⟩ := hu' ⟨by simp, by
    show card _ _ < _
    rw [card_restrict]; exact hroom, by simp⟩
  cases e'
  rw [tree_get ht'.isTree, tree_get h, hN]
  show (if k < min (64 ^ I.D) _ then Except.ok (restrict (64 ^ I.D) M k) else _) =
    if k < min (64 ^ I.D) _ then _ else _
  by_cases hk : k < min (64 ^ I.D) (2 ^ 64 - 1)
  · rw [if_pos hk, if_pos hk, restrict, if_pos (by omega)]
  · rw [if_neg hk, if_neg hk]

/-- **C61**, `materialize` of a tree without exact hierarchy: in raw memory the construction has no
undefined behaviour unless the content is empty (finding 3); the result reads as the source, and behaves as
the map under every later history that leaves the set of occupied blocks of 64 keys unchanged (others: C43). -/
theorem C61_bytes_materialize_inexact {I : Impl S C α} {s : S} {M : Nat → Option α} (h : IsTree I s M)
    (hN : I.N = 1) (hex : I.exact = false) (h9 : I.D ≤ 9) (hroom : card (64 ^ I.D) M < 2 ^ 32)
    (hne : ∃ k, k < 64 ^ I.D ∧ M k ≠ none) {m : Bytes.BHeap} (hf : Bytes.Finite m.block) :
    ∃ bt, Bytes.materialize I s m = .ok bt ∧
      (∀ k, k < 64 ^ I.D → k < 2 ^ 64 - 1 → (Bytes.impl α I.D).get bt k = .ok (M k)) ∧
      BlockUsableBytes m.block I.D bt (restrict (64 ^ I.D) M) := by
  rcases contract_materialize h hN hex h9 hroom with ⟨t, e, hr, hu, -⟩ | ⟨-, -, he⟩
  · obtain ⟨bt, be, ρ, T⟩ := Bytes.materialize_sim I s hf t e
    obtain ⟨hg, -, -, -, vs, heap', hd, hp, hfree⟩ := hr
    refine ⟨bt, be, fun k hk hk2 => ?_, blockUsable_bytes T hu⟩
    refine (Bytes.get_sim I.D T k).eq ?_
    rw [hg k, tree_get h, hN]
    exact if_pos (by show k < min (64 ^ I.D) _; omega)
  · obtain ⟨k, hk, hv⟩ := hne
    exact absurd (he k hk) hv

end

/-! ## Concrete memory -/

/-- An address beyond all blocks. -/
noncomputable def beyond (m : Bytes.Mem) : Nat :=
  open Classical in if h : Bytes.Finite m then h.choose else 0

/-- An allocator that puts the `call`-th block at address `f call` if that address is free, and beyond all
blocks otherwise. -/
noncomputable def prefer (f : Nat → Nat) : Bytes.Allocator where
  pick := fun call m _ => if (m (f call)).isNone then f call else beyond m
  free := fun call m size hf => by
    by_cases h : (m (f call)).isNone
    · rw [if_pos h]; simpa using h
    · rw [if_neg h]
      unfold beyond
      rw [dif_pos hf]
      exact hf.choose_spec _ (Nat.le_refl _)

/-- A memory with one foreign block at address 0 and an allocator that gives ascending addresses. -/
noncomputable def exMem : Bytes.BHeap :=
  ⟨fun x => if x = 0 then some [.byte 42] else none, 1, prefer id⟩

theorem exMem_finite : Bytes.Finite exMem.block := ⟨1, fun x hx => if_neg (by omega)⟩

/-- The same with an allocator that reuses the address of the block freed by `realloc`: -/
noncomputable def exMem2 : Bytes.BHeap :=
  ⟨fun x => if x = 0 then some [.byte 42] else none, 1, prefer fun call => min call 2⟩

/-- The bytes of block `a` after `insert(5, _)`, `insert(64, _)` on a new `DenseTree<u8, 2>`: -/
noncomputable def exBytes (a : Nat) : R (Option (List Bytes.MByte)) := do
  let t ← Bytes.default Nat 2 exMem
  let (t, _) ← Bytes.run 2 t [.insert 5 50, .insert 64 60]
  return t.heap.block a

/-- the terminal node of keys 64..127 has mask 1, capacity 2, length 2, and the children 2 (the data index of
key 64) and 0 (the sentinel) as `u32`s. -/
example : exBytes 3 = .ok (some
    ([.byte 1, .byte 0, .byte 0, .byte 0, .byte 0, .byte 0, .byte 0, .byte 0,
      .byte 2, .byte 2, .undef, .undef, .undef, .undef, .undef, .undef,
      .byte 2, .byte 0, .byte 0, .byte 0, .byte 0, .byte 0, .byte 0, .byte 0])) := by rfl

/-- The hypotheses are met by the history of C11. -/
example : ∃ bt0 bt, Bytes.default Nat 2 exMem = .ok bt0 ∧
    Bytes.run 2 bt0 exOps = .ok (bt, (specRun emptyMap exOps).2) ∧
    UsableBytes exMem.block 2 bt (specRun emptyMap exOps).1 := C61_bytes exOps_history exMem_finite

/-- A node that grows: three keys in one block of 64 reallocate the terminal node (block 2, freed) with
capacity 4; -/
example : (do
    let t ← Bytes.default Nat 2 exMem
    let (t, _) ← Bytes.run 2 t [.insert 7 1, .insert 5 2, .insert 6 3]
    return ((t.heap.block 2).isSome, (t.heap.block 3).map List.length, t.heap.calls)) =
    .ok (false, some 32, 4) := by rfl

/-- with the other allocator it stays where it is. -/
example : (do
    let t ← Bytes.default Nat 2 exMem2
    let (t, _) ← Bytes.run 2 t [.insert 7 1, .insert 5 2, .insert 6 3]
    return ((t.heap.block 2).map List.length, (t.heap.block 3).isSome, t.heap.calls)) =
    .ok (some 32, false, 4) := by rfl

/-- A history with keys out of range, for `C61_bytes_safe`: it stops at the fourth operation with a panic. -/
example : Bounded (64 ^ 2) (2 ^ 32) emptyMap
    [Op.insert 7 1, .remove 5, .get 7, .insert 4096 1, .insert 5 3] := by
  have hlt : ∀ M : Nat → Option Nat, card (64 ^ 2) M < 2 ^ 32 := fun M =>
    Nat.lt_of_le_of_lt (card_le _ M) (by decide)
  exact ⟨hlt _, hlt _, hlt _, hlt _, hlt _, hlt _⟩

example : (do
    let t ← Bytes.default Nat 2 exMem
    let (t, os) ← Bytes.run 2 t [.insert 7 1, .remove 5, .get 7]
    let _ ← Bytes.run 2 t [.insert 4096 1, .insert 5 3]
    return os) = .error .panic := by rfl

end Hibit.Props
