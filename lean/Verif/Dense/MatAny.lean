import Verif.Dense.MatSparse
/-!
# Materialize: sources that claim an exact hierarchy and have empty nodes

A `DenseTree` always claims `EXACT_HIERARCHY` (dense_tree/mod.rs), also after it was materialized from
an inexact tree (finding 4) or lost an insertion to a panic (finding 14) and has empty nodes.
-/
namespace Hibit.Dense
open Hibit

/-- The same tree, claiming `EXACT_HIERARCHY`. -/
def asExact {S C α : Type} (I : Impl S C α) : Impl S C α := { I with exact := true }

section
variable {S C α : Type} {I : Impl S C α} {s : S} {T : TreeSpec α} {Kr : CursorRel C}
  {M : Nat → Option α}

/-- The nodes announced by the masks. -/
def LiveM (D : Nat) (T : TreeSpec α) (q : List Nat) : Prop :=
  ValidPath 64 q ∧ q.length < D ∧ Marked T q

theorem LiveM.bit {D : Nat} {p : List Nat} {c : Nat} (h : LiveM D T (p ++ [c])) :
    T.bits p c = true := h.2.2 p c (List.prefix_refl _)

theorem LiveM.mono {D : Nat} {p q : List Nat} (h : LiveM D T q) (hp : p <+: q) : LiveM D T p := by
  obtain ⟨h1, h2, h3⟩ := h
  have := hp.length_le
  exact ⟨fun x hx => h1 x (hp.subset hx), by omega, fun r i hr => h3 r i (hr.trans hp)⟩

theorem LiveM.child {D : Nat} {p : List Nat} {c : Nat} (h : LiveM D T p) (hc : c < 64)
    (hl : p.length + 1 < D) (hb : T.bits p c = true) : LiveM D T (p ++ [c]) :=
  ⟨ValidPath.append h.1 hc, by simpa using hl, h.2.2.snoc hb⟩

theorem Src.liveM_of_below (X : Src I s T Kr M) {q : List Nat} (h : Below 64 I.D M q)
    (hl : q.length < I.D) : LiveM I.D T q := ⟨Below.valid h, hl, X.marked_of_below h⟩

/-- from.rs:53-94, for a source that only claims an exact hierarchy. -/
theorem fromExact_any (X : Src I s T Kr M) :
    ∀ (left : Nat) (p : List Nat) (index : Nat) (st : MSt C α), p.length + left + 1 = I.D →
      ValidPath 64 p → LiveM I.D T p → Entry T Kr p index st.cur →
      (∀ a, st.heap.next ≤ a → st.heap.node a = none) →
      DataAt M st (unpath 64 p * 64 ^ (left + 1)) →
      ∃ st' a loc, fromExact (asExact I) s left st index (unpath 64 p * 64 ^ (left + 1)) = .ok (st', a) ∧
        Kr.pos st'.cur p ∧ DataAt M st' (unpath 64 p * 64 ^ (left + 1) + 64 ^ (left + 1)) ∧
        (∀ a, a < st.heap.next → st'.heap.node a = st.heap.node a) ∧
        Part id I.D (KM I.D M) st.heap.next st'.heap loc ∧ loc p = some a ∧
        DomP (LiveM I.D T) p loc := by
  intro left
  induction left with
  | zero =>
    intro p index st hl hv hlive he hf hd
    simp only [Nat.zero_add, Nat.pow_one] at hd ⊢
    obtain ⟨w, c', e1, hw, hpos⟩ := X.select hv (by omega) he
    obtain ⟨st', f1, f2, f3, f4, f5⟩ := makeTerminalNode_spec X (g := id) (fun _ _ => rfl)
      (st := { st with cur := c' }) hv (by omega) hpos hw hf hd
    refine ⟨st', st.heap.next, _, ?_, f2, f3, f4, f5, by simp, ?_⟩
    · unfold fromExact
      simp only [asExact]
      rw [if_pos trivial, show I.D - 1 = p.length by omega, e1]
      simp only [bind_ok, getU, List.getElem?_cons_zero, capOf_eq]
      exact f1
    · intro q
      by_cases e : q = p
      · subst e
        simp only [upd_same]
        exact ⟨fun _ => ⟨List.prefix_refl q, hlive⟩, fun _ => ⟨_, rfl⟩⟩
      · rw [upd_ne _ _ e]
        constructor
        · rintro ⟨_, h⟩; cases h
        · rintro ⟨h1, h3, h2, _⟩
          have := h1.length_le
          exact absurd (h1.eq_of_length (by omega)).symm e
  | succ left ih =>
    intro p index st hl hv hlive he hf hd
    obtain ⟨w, c', e1, hw, hpos⟩ := X.select hv (by omega) he
    have hpop := popcount_le w
    have hval : ∀ q, LiveM I.D T q → ValidPath 64 q := fun q h => h.1
    have hliveC : ∀ c, c < 64 → (T.bits p c = true ↔ LiveM I.D T (p ++ [c])) := fun c hc =>
      ⟨fun h => hlive.child hc (by omega) h, fun h => h.bit⟩
    -- the loop
    let P : Nat → MSt C α → Prop := fun c st' =>
      ∃ loc, Kr.pos st'.cur p ∧
      DataAt M st' (unpath 64 p * 64 ^ (left + 2) + c * 64 ^ (left + 1)) ∧
      (∀ a, a < st.heap.next → st'.heap.node a = st.heap.node a) ∧
      st'.heap.node st.heap.next = some (openNode .branch w (popcount w + 1)
        ((List.range c).filterMap (cellsOf I.D loc (KM I.D M) p))) ∧
      Part id I.D (KM I.D M) (st.heap.next + 1) st'.heap loc ∧ DomC (LiveM I.D T) p c loc
    have hblk : ∀ c, unpath 64 p * 64 ^ (left + 2) + c * 64 ^ (left + 1) =
        unpath 64 (p ++ [c]) * 64 ^ (left + 1) := by
      intro c
      rw [unpath_snoc, Nat.add_mul, Nat.pow_succ 64 (left + 1), Nat.mul_assoc,
        Nat.mul_comm 64 (64 ^ (left + 1))]
    have hD9 := pow_lt_usize X.h9
    obtain ⟨st', t1, t2⟩ := traverse_word
      (body := exactBody I.D p.length st.heap.next (unpath 64 p * 64 ^ (left + 2)) (fromExact (asExact I) s left))
      (st := { st with cur := c', heap := ⟨upd st.heap.node st.heap.next
        (some (openNode .branch w (popcount w + 1) [])), st.heap.next + 1⟩ }) (w := w) P
      (by
        refine ⟨fun _ => none, hpos, ?_, fun a ha => upd_ne _ _ (by omega), by simp, ?_, ?_⟩
        · rw [Nat.zero_mul, Nat.add_zero]; exact hd
        · have := Part.empty (g := id) (D := I.D) (K := KM I.D M) (h := (⟨upd st.heap.node st.heap.next
            (some (openNode .branch w (popcount w + 1) [])), st.heap.next + 1⟩ : Heap)) (by
            intro a ha
            simp only at ha ⊢
            rw [upd_ne _ _ (by omega)]; exact hf a (by omega))
          exact this
        · intro q
          exact ⟨fun ⟨_, h⟩ => (by cases h), fun ⟨i, hi, _⟩ => (by omega)⟩)
      (by
        rintro c st1 hc hb ⟨loc, q1, q2, q3, q4, q5, q6⟩
        rw [hw c hc] at hb
        have hvc := ValidPath.append hv hc
        have hle := unpath_lt_pow (p := p ++ [c]) (n := left + 1) hvc (D := I.D) (by simp; omega)
        rw [hblk] at q2
        obtain ⟨st2, a, loc2, r1, r2, r3, r4, r5, r6, r7⟩ := ih (p ++ [c]) c st1 (by simp; omega) hvc
          ((hliveC c hc).1 hb) (.inr ⟨p, rfl, q1, hb⟩) q5.fresh q2
        have hcell : cellsOf I.D (joinLoc (p ++ [c]) loc loc2) (KM I.D M) p c =
            some (.ptr (.heap a)) := by
          rw [cellsOf_branch (by omega)]
          unfold joinLoc
          rw [if_pos (List.prefix_refl _), r6]; rfl
        have hold : (List.range c).filterMap (cellsOf I.D (joinLoc (p ++ [c]) loc loc2) (KM I.D M) p) =
            (List.range c).filterMap (cellsOf I.D loc (KM I.D M) p) := by
          apply filterMap_congr_mem
          intro i hi
          simp only [List.mem_range] at hi
          rw [cellsOf_branch (by omega), cellsOf_branch (by omega)]
          unfold joinLoc
          rw [if_neg]
          intro h
          have := snoc_prefix_unique h (List.prefix_refl _)
          omega
        have hlt : ((List.range c).filterMap (cellsOf I.D loc (KM I.D M) p)).length < popcount w + 1 := by
          have h1 : ((List.range c).filterMap (cellsOf I.D loc (KM I.D M) p)).length ≤
              ((List.range 64).filterMap (fun i => if w.getLsbD i then some (Cell.idx 0) else none)).length := by
            refine Nat.le_trans ?_ (filterMap_take_le _ (show c ≤ 64 by omega))
            rw [List.length_filterMap_eq_countP, List.length_filterMap_eq_countP]
            apply List.countP_mono_left
            intro i hi
            simp only [List.mem_range] at hi
            rw [cellsOf_branch (by omega)]
            cases hloc : loc (p ++ [i]) with
            | none => simp
            | some b =>
              obtain ⟨j, hj, hj1, hj2⟩ := (q6 _).1 ⟨b, hloc⟩
              have := (hliveC i (by omega)).2 hj2
              rw [← hw i (by omega)] at this
              simp [this]
          rw [filterMap_length_bits (w := w) (by intro i _; cases w.getLsbD i <;> simp)] at h1
          omega
        unfold exactBody
        rw [blockStart_eq (m := left + 1) (by omega) X.h9 hc]
        simp only [bind_ok, addUsize]
        rw [hblk, if_pos (by have := Nat.le_trans (Nat.le_add_right _ _) hle; omega)]
        simp only [bind_ok, r1]
        have hnode : st2.heap.node st.heap.next = some (openNode .branch w (popcount w + 1)
            ((List.range c).filterMap (cellsOf I.D loc (KM I.D M) p))) := by
          rw [r4 _ (by have := q5.lo_le; omega)]; exact q4
        rw [rawPush_open hnode hlt (by omega)]
        have hlo : st.heap.next < st2.heap.next := by
          have := q5.lo_le; have := r5.lo_le; omega
        refine ⟨_, rfl, joinLoc (p ++ [c]) loc loc2, ?_, ?_, ?_, ?_, ?_, q6.join r7⟩
        · have := X.L.pos_take _ _ p.length r2
          simpa using this
        · rw [hblk, unpath_snoc, show unpath 64 p * 64 + (c + 1) = unpath 64 p * 64 + c + 1 by omega,
            Nat.succ_mul, ← unpath_snoc]
          exact r3
        · intro b hb'
          simp only [Heap.put]
          rw [upd_ne _ _ (by omega), r4 b (by have := q5.lo_le; omega)]; exact q3 b hb'
        · simp only [Heap.put, upd_same]
          rw [List.range_succ, List.filterMap_append, hold]
          simp [hcell]
        · have := Part.join q5 r5 r4 (fun q b h => q6.supp h) (fun q b h => ((r7 q).1 ⟨b, h⟩).1)
          refine this.congr rfl ?_
          intro b hb'
          simp only [Heap.put]
          rw [upd_ne _ _ (by omega)])
      (by
        rintro c st1 hc hb ⟨loc, q1, q2, q3, q4, q5, q6⟩
        rw [hw c hc] at hb
        have hno' : ∀ q, (p ++ [c]) <+: q → ¬ LiveM I.D T q := by
          intro q hq h
          have := (h.mono hq).bit
          rw [hb] at this
          cases this
        refine ⟨loc, q1, ?_, q3, ?_, q5, q6.skip hno'⟩
        · rw [Nat.succ_mul, ← Nat.add_assoc]
          refine q2.gap (fun r hr => ?_)
          cases hM : M (unpath 64 p * 64 ^ (left + 2) + c * 64 ^ (left + 1) + r) with
          | none => rfl
          | some v =>
            exfalso
            refine hno' (p ++ [c]) (List.prefix_refl _) (X.liveM_of_below
              (below_of_key (n := left + 1) (r := r) (ValidPath.append hv hc) (by simp; omega) hr ?_)
              (by simp; omega))
            rw [← hblk, hM]; rfl
        · rw [q4, List.range_succ, List.filterMap_append]
          have : cellsOf I.D loc (KM I.D M) p c = none := by
            rw [cellsOf_branch (by omega)]
            cases hloc : loc (p ++ [c]) with
            | none => rfl
            | some b => exact absurd (List.prefix_refl _) (q6.supp hloc).2.2
          simp [this])
    obtain ⟨loc, q1, q2, q3, q4, q5, q6⟩ := t2
    have hbits : ∀ i, i < 64 → w.getLsbD i = (cellsOf I.D loc (KM I.D M) p i).isSome := by
      intro i hi
      rw [hw i hi, cellsOf_branch (by omega), Option.isSome_map, Bool.eq_iff_iff, hliveC i hi,
        Option.isSome_iff_exists, q6]
      constructor
      · intro h; exact ⟨i, hi, List.prefix_refl _, h⟩
      · rintro ⟨_, _, _, h⟩; exact h
    have hlen := filterMap_length_bits hbits
    refine ⟨{ st' with heap := st'.heap.put st.heap.next (doneNode .branch w (popcount w + 1)
      ((List.range 64).filterMap (cellsOf I.D loc (KM I.D M) p))
      (.ptr (.stat (9 - I.D + (p.length + 1))))) }, st.heap.next, upd loc p (some st.heap.next),
      ?_, q1, ?_, ?_, ?_, by simp, q6.close hval hlive _⟩
    · unfold fromExact
      rw [if_pos (show (asExact I).exact = true from rfl)]
      show (I.selectU st.cur s (I.D - 1 - (left + 1)) index >>= _) = _
      rw [show I.D - 1 - (left + 1) = p.length by omega, e1]
      simp only [bind_ok, getU, List.getElem?_cons_zero, capOf_eq, rawNew_eq, Heap.alloc]
      rw [show (asExact I).D = I.D from rfl, show I.D - 1 - (left + 1) = p.length by omega, t1]
      have hnine := X.h9
      simp only [bind_ok, emptyNode]
      rw [if_pos (by omega)]
      simp only [bind_ok]
      rw [rawFinalize_open q4 (by omega) (by omega)]
      rfl
    · have : 64 ^ (left + 2) = 64 * 64 ^ (left + 1) := by rw [Nat.pow_succ, Nat.mul_comm]
      rw [this] at q2 ⊢
      exact q2
    · intro b hb
      simp only [Heap.put]
      rw [upd_ne _ _ (by omega)]; exact q3 b hb
    · have hkind : kindOf I.D p = .branch := by unfold kindOf; rw [if_pos (by omega)]
      have hsent : sent I.D p = .ptr (.stat (9 - I.D + (p.length + 1))) := by
        unfold sent; rw [if_pos (by omega)]
      have hE : Part id I.D (KM I.D M) (st.heap.next + 1) (st'.heap.put st.heap.next
          (doneNode .branch w (popcount w + 1)
          ((List.range 64).filterMap (cellsOf I.D loc (KM I.D M) p))
          (.ptr (.stat (9 - I.D + (p.length + 1)))))) loc := by
        refine q5.congr rfl ?_
        intro b hb
        simp only [Heap.put]
        rw [upd_ne _ _ (by omega)]
      refine hE.close (n := doneNode .branch w (popcount w + 1)
          ((List.range 64).filterMap (cellsOf I.D loc (KM I.D M) p))
          (.ptr (.stat (9 - I.D + (p.length + 1))))) (fun q b h => ?_) (by simp [Heap.put])
          (by rw [hkind]; rfl) ?_
      · have := q6.supp h
        exact ⟨this.1, this.2.1⟩
      · rw [hsent]
        exact doneNode_rep hbits

/-- Materializing such a tree gives a tree representing its content. -/
theorem materialize_any (X : Src I s T Kr M)
    (hout : ∀ k, 64 ^ I.D ≤ k → M k = none) :
    ∃ t, materialize (asExact I) s = .ok t ∧ DRep NoNode I.D t M ∧
      t.keys = (usizeMod - 1) :: keysOf (64 ^ I.D) M ∧
      t.data = none :: (valuesOf (64 ^ I.D) M).map some := by
  have hD := X.L.cfg.depth
  obtain ⟨c, e0, hi⟩ := X.L.new_ok
  obtain ⟨st, a, loc, e1, -, hd, -, hP, hloc, hdom⟩ := fromExact_any X (I.D - 1) [] 0
    ⟨⟨fun _ => none, 0⟩, c, [none], [usizeMod - 1]⟩ (by simp; omega) ValidPath.nil
    ⟨ValidPath.nil, by simp; omega, by intro r i hr; have := hr.length_le; simp at this⟩ (.inl ⟨rfl, rfl, hi⟩) (fun _ _ => rfl)
    (by simp [DataAt, valuesOf, keysOf])
  rw [show I.D - 1 + 1 = I.D by omega] at hd e1
  simp only [unpath_nil, Nat.zero_mul, Nat.zero_add] at hd e1
  refine ⟨⟨st.heap, .heap a, st.data, st.keys⟩, ?_, ⟨loc, KM I.D M, ?_, ?_, ?_, ?_⟩, hd.2, hd.1⟩
  · unfold materialize fromRoot
    show (I.new s >>= _) = _
    rw [e0]
    simp only [bind_ok]
    rw [if_pos (show (asExact I).exact = true from rfl)]
    rw [show (asExact I).D = I.D from rfl, e1]
    rfl
  · have hlive : ∀ p a, loc p = some a → LiveM I.D T p := fun p a h => ((hdom p).1 ⟨a, h⟩).2
    refine ⟨⟨fun p a h => (hP.node p a h).2, hP.inj, fun a n h => hP.cover a n (Nat.zero_le _) h, hP.fresh⟩, ⟨a, hloc, rfl⟩,
      ?_, ?_, ?_, ?_⟩
    · intro p a h
      exact ⟨(hlive p a h).1, (hlive p a h).2.1⟩
    · intro p i a h
      exact (hdom p).2 ⟨List.nil_prefix, (hlive _ a h).mono (List.prefix_append p [i])⟩
    · intro P d h
      obtain ⟨h1, h2, -⟩ := KM_some h
      exact ⟨h1, h2⟩
    · intro p i d h
      obtain ⟨h1, h2, h3, -⟩ := KM_some h
      refine (hdom p).2 ⟨List.nil_prefix, X.liveM_of_below ⟨[i], h1, h2, h3⟩ (by simp at h2; omega)⟩
  · intro p a hx
    exact hx.elim
  · simp only
    rw [hd.1, hd.2]
    exact DInv.listing X.room
  · intro k
    simp only [hd.1]
    exact den_listing hout k

end

end Hibit.Dense
