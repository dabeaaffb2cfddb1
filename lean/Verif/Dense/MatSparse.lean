import Verif.Dense.MatExact
/-!
# Materialize: the construction from a tree without exact hierarchy

`from_parts` stores a length without the sentinel. Apart from this header field the result is a
well-formed tree; the length is only used by later insertions and removals.
-/
namespace Hibit.Dense
open Hibit

/-- The header length `from_parts` should have stored. -/
def fixLen (n : Node) : Node := if n.kind = .branch then { n with len := n.len + 1 } else n

section
variable {S C α : Type} {I : Impl S C α} {s : S} {T : TreeSpec α} {Kr : CursorRel C}
  {M : Nat → Option α}

/-- Every step of the path `q` is a set bit. -/
def Marked (T : TreeSpec α) (q : List Nat) : Prop := ∀ r i, (r ++ [i]) <+: q → T.bits r i = true

/-- The nodes made from an inexact tree: those on a marked path to a terminal node. -/
def LiveS (D : Nat) (T : TreeSpec α) (q : List Nat) : Prop :=
  ∃ y, q <+: y ∧ ValidPath 64 y ∧ y.length + 1 = D ∧ Marked T y

theorem LiveS.mono {D : Nat} {p q : List Nat} (h : LiveS D T q) (hp : p <+: q) : LiveS D T p := by
  obtain ⟨y, h1, h2⟩ := h
  exact ⟨y, hp.trans h1, h2⟩

theorem LiveS.valid {D : Nat} {q : List Nat} (h : LiveS D T q) : ValidPath 64 q := by
  obtain ⟨y, ⟨x, rfl⟩, h2, -⟩ := h
  exact fun z hz => h2 z (by simp [hz])

theorem LiveS.len {D : Nat} {q : List Nat} (h : LiveS D T q) : q.length < D := by
  obtain ⟨y, h1, -, h3, -⟩ := h
  have := h1.length_le
  omega

theorem LiveS.bit {D : Nat} {p : List Nat} {c : Nat} (h : LiveS D T (p ++ [c])) :
    T.bits p c = true := by
  obtain ⟨y, h1, -, -, h4⟩ := h
  exact h4 p c h1

theorem LiveS.child {D : Nat} {p : List Nat} (h : LiveS D T p) (hp : p.length + 1 < D) :
    ∃ c, c < 64 ∧ LiveS D T (p ++ [c]) := by
  obtain ⟨y, h1, h2, h3, h4⟩ := h
  rcases prefix_cases h1 with e | ⟨i, hi⟩
  · rw [e] at h3; omega
  · obtain ⟨x, rfl⟩ := hi
    exact ⟨i, h2 i (by simp), _, ⟨x, rfl⟩, h2, h3, h4⟩

theorem Marked.snoc {q : List Nat} {c : Nat} (h : Marked T q) (hb : T.bits q c = true) :
    Marked T (q ++ [c]) := by
  intro r i hr
  rcases prefix_append_single hr with e | e
  · exact h r i e
  · rw [append_singleton_inj] at e
    rw [e.1, e.2]; exact hb

theorem Src.marked_of_below (X : Src I s T Kr M) {q : List Nat} (h : Below 64 I.D M q) :
    Marked T q := by
  intro r i hr
  have hb := Below.mono h hr
  obtain ⟨x, h1, h2, -⟩ := hb
  exact X.mask.below r i (by simp at h2; omega) (Below.mono h hr)

theorem Src.live_of_below (X : Src I s T Kr M) {q : List Nat} (h : Below 64 I.D M q)
    (hl : q.length < I.D) : LiveS I.D T q := by
  obtain ⟨x, h1, h2, h3⟩ := h
  refine ⟨(q ++ x).take (I.D - 1), ?_, ?_, ?_, ?_⟩
  · rw [List.prefix_take_iff]
    exact ⟨List.prefix_append _ _, by omega⟩
  · intro z hz; exact h1 z (List.mem_of_mem_take hz)
  · rw [List.length_take]; omega
  · refine X.marked_of_below ?_
    refine ⟨(q ++ x).drop (I.D - 1), ?_, ?_, ?_⟩ <;> rw [List.take_append_drop] <;> assumption

/-- A new node on top of the forest of its subtrees. -/
theorem Part.add {g : Node → Node} {D : Nat} {K : List Nat → Option Nat} {lo : Nat} {h : Heap}
    {loc : List Nat → Option Nat} {p : List Nat} {n : Node} (H : Part g D K lo h loc)
    (hs : ∀ q a, loc q = some a → p <+: q ∧ q ≠ p) (hk : n.kind = kindOf D p)
    (hr : NodeRep (g n) (cellsOf D loc K p) (sent D p)) :
    Part g D K lo (h.alloc n).1 (upd loc p (some h.next)) where
  lo_le := Nat.le_trans H.lo_le (Nat.le_succ _)
  fresh a ha := by
    have ha' : h.next + 1 ≤ a := ha
    exact (upd_ne _ _ (by omega)).trans (H.fresh a (by omega))
  node q a hq := by
    have hcells : ∀ q, p <+: q → ∀ i,
        cellsOf D loc K q i = cellsOf D (upd loc p (some h.next)) K q i := by
      intro q hpq i
      unfold cellsOf
      rw [upd_ne]
      intro e
      have := hpq.length_le
      rw [← e] at this
      simp at this
      omega
    by_cases e : q = p
    · subst e
      simp at hq; subst hq
      exact ⟨H.lo_le, n, by simp [Heap.alloc], hk,
        hr.congr (fun i _ => hcells q (List.prefix_refl q) i)⟩
    · rw [upd_ne _ _ e] at hq
      obtain ⟨g1, m, g2, g3, g4⟩ := H.node q a hq
      refine ⟨g1, m, ?_, g3, g4.congr (fun i _ => hcells q (hs q a hq).1 i)⟩
      have := H.lt_next hq
      exact (upd_ne _ _ (by omega)).trans g2
  inj q r a hq hr' := by
    by_cases e : q = p
    · subst e
      simp at hq; subst hq
      by_cases e' : r = q
      · exact e'.symm
      · rw [upd_ne _ _ e'] at hr'
        have := H.lt_next hr'; omega
    · rw [upd_ne _ _ e] at hq
      by_cases e' : r = p
      · subst e'
        simp at hr'; subst hr'
        have := H.lt_next hq; omega
      · rw [upd_ne _ _ e'] at hr'
        exact H.inj q r a hq hr'
  cover a m ha e := by
    by_cases ea : a = h.next
    · subst ea; exact ⟨p, by simp⟩
    · have e' : h.node a = some m := by
        rw [← e]; exact (upd_ne _ _ ea).symm
      obtain ⟨q, hq⟩ := H.cover a m ha e'
      refine ⟨q, ?_⟩
      rw [upd_ne]
      · exact hq
      · intro e'; exact (hs q a hq).2 e'

/-- A `from_parts` node, once its length is repaired. -/
theorem fromParts_rep {mask : Word} {f : Nat → Option Cell} {e : Cell}
    (hf : ∀ i, i < 64 → mask.getLsbD i = (f i).isSome) :
    NodeRep (fixLen ⟨.branch, mask, (((List.range 64).filterMap f).length + 1) % 256,
      ((List.range 64).filterMap f).length % 256, (List.range 64).filterMap f ++ [e]⟩) f e := by
  have hle := popcount_le mask
  have hlen := filterMap_length_bits hf
  have h := doneNode_rep (k := .branch) (s := e) hf
  have e1 : (((List.range 64).filterMap f).length + 1) % 256 = popcount mask + 1 := by omega
  have e2 : ((List.range 64).filterMap f).length % 256 = ((List.range 64).filterMap f).length := by
    omega
  rw [e1, e2]
  exact h

/-- from.rs:97-137. -/
theorem fromSparse_spec (X : Src I s T Kr M) :
    ∀ (left : Nat) (p : List Nat) (index : Nat) (st : MSt C α), p.length + left + 1 = I.D →
      ValidPath 64 p → Marked T p → Entry T Kr p index st.cur →
      (∀ a, st.heap.next ≤ a → st.heap.node a = none) →
      DataAt M st (unpath 64 p * 64 ^ (left + 1)) →
      ∃ st' loc, fromSparse I s left st index (unpath 64 p * 64 ^ (left + 1)) = .ok (st', loc p) ∧
        Kr.pos st'.cur p ∧ DataAt M st' (unpath 64 p * 64 ^ (left + 1) + 64 ^ (left + 1)) ∧
        (∀ a, a < st.heap.next → st'.heap.node a = st.heap.node a) ∧
        Part fixLen I.D (KM I.D M) st.heap.next st'.heap loc ∧ DomP (LiveS I.D T) p loc := by
  intro left
  induction left with
  | zero =>
    intro p index st hl hv hm he hf hd
    simp only [Nat.zero_add, Nat.pow_one] at hd ⊢
    obtain ⟨w, c', e1, hw, hpos⟩ := X.select hv (by omega) he
    obtain ⟨st', f1, f2, f3, f4, f5⟩ := makeTerminalNode_spec X (g := fixLen)
      (fun n hn => by unfold fixLen; rw [hn]; rfl)
      (st := { st with cur := c' }) hv (by omega) hpos hw hf hd
    refine ⟨st', _, ?_, f2, f3, f4, f5, ?_⟩
    · unfold fromSparse
      rw [show I.D - 1 = p.length by omega, e1]
      simp only [bind_ok, getU, List.getElem?_cons_zero, capOf_eq, f1, pure_eq_ok, upd_same]
    · intro q
      by_cases e : q = p
      · subst e
        simp only [upd_same]
        exact ⟨fun _ => ⟨List.prefix_refl q, q, List.prefix_refl q, hv, by omega, hm⟩,
          fun _ => ⟨_, rfl⟩⟩
      · rw [upd_ne _ _ e]
        constructor
        · rintro ⟨_, h⟩; cases h
        · rintro ⟨h1, h2⟩
          have := h1.length_le
          have := h2.len
          exact absurd (h1.eq_of_length (by omega)).symm e
  | succ left ih =>
    intro p index st hl hv hm he hf hd
    obtain ⟨w, c', e1, hw, hpos⟩ := X.select hv (by omega) he
    let P : Nat → SSt C α → Prop := fun c v =>
      ∃ loc, Kr.pos v.st.cur p ∧
      DataAt M v.st (unpath 64 p * 64 ^ (left + 2) + c * 64 ^ (left + 1)) ∧
      (∀ a, a < st.heap.next → v.st.heap.node a = st.heap.node a) ∧
      (∀ j, j < 64 → v.nodeMask.getLsbD j = (cellsOf I.D loc (KM I.D M) p j).isSome) ∧
      v.childs = (List.range c).filterMap (cellsOf I.D loc (KM I.D M) p) ∧
      Part fixLen I.D (KM I.D M) st.heap.next v.st.heap loc ∧ DomC (LiveS I.D T) p c loc
    have hblk : ∀ c, unpath 64 p * 64 ^ (left + 2) + c * 64 ^ (left + 1) =
        unpath 64 (p ++ [c]) * 64 ^ (left + 1) := by
      intro c
      rw [unpath_snoc, Nat.add_mul, Nat.pow_succ 64 (left + 1), Nat.mul_assoc,
        Nat.mul_comm 64 (64 ^ (left + 1))]
    have hD9 := pow_lt_usize X.h9
    obtain ⟨v, t1, t2⟩ := traverse_word
      (body := sparseBody I.D p.length (unpath 64 p * 64 ^ (left + 2)) (fromSparse I s left))
      (st := ⟨{ st with cur := c' }, 0, []⟩) (w := w) P
      (by
        refine ⟨fun _ => none, hpos, ?_, fun a ha => rfl, ?_, rfl, Part.empty hf, ?_⟩
        · rw [Nat.zero_mul, Nat.add_zero]; exact hd
        · intro j hj
          rw [cellsOf_branch (by omega)]; simp
        · intro q
          exact ⟨fun ⟨_, h⟩ => (by cases h), fun ⟨i, hi, _⟩ => (by omega)⟩)
      (by
        rintro c v1 hc hb ⟨loc, q1, q2, q3, q4, q5, q6, q7⟩
        rw [hw c hc] at hb
        have hvc := ValidPath.append hv hc
        have hle := unpath_lt_pow (p := p ++ [c]) (n := left + 1) hvc (D := I.D) (by simp; omega)
        rw [hblk] at q2
        obtain ⟨st2, loc2, r1, r2, r3, r4, r5, r6⟩ := ih (p ++ [c]) c v1.st (by simp; omega) hvc
          (hm.snoc hb) (.inr ⟨p, rfl, q1, hb⟩) q6.fresh q2
        have hcell : cellsOf I.D (joinLoc (p ++ [c]) loc loc2) (KM I.D M) p c =
            (loc2 (p ++ [c])).map (fun a => .ptr (.heap a)) := by
          rw [cellsOf_branch (by omega)]
          unfold joinLoc
          rw [if_pos (List.prefix_refl _)]
        have hother : ∀ i, i ≠ c → cellsOf I.D (joinLoc (p ++ [c]) loc loc2) (KM I.D M) p i =
            cellsOf I.D loc (KM I.D M) p i := by
          intro i hi
          rw [cellsOf_branch (by omega), cellsOf_branch (by omega)]
          unfold joinLoc
          rw [if_neg]
          intro h
          exact hi (snoc_prefix_unique h (List.prefix_refl _)).symm
        have hcnone : cellsOf I.D loc (KM I.D M) p c = none := by
          rw [cellsOf_branch (by omega)]
          cases hloc : loc (p ++ [c]) with
          | none => rfl
          | some b => exact absurd (List.prefix_refl _) (q7.supp hloc).2.2
        have hold : (List.range c).filterMap (cellsOf I.D (joinLoc (p ++ [c]) loc loc2) (KM I.D M) p) =
            (List.range c).filterMap (cellsOf I.D loc (KM I.D M) p) := by
          apply filterMap_congr_mem
          intro i hi
          simp only [List.mem_range] at hi
          exact hother i (by omega)
        have hpos2 : Kr.pos st2.cur p := by
          have := X.L.pos_take _ _ p.length r2
          simpa using this
        have hdat : DataAt M st2 (unpath 64 p * 64 ^ (left + 2) + (c + 1) * 64 ^ (left + 1)) := by
          rw [hblk, unpath_snoc, show unpath 64 p * 64 + (c + 1) = unpath 64 p * 64 + c + 1 by omega,
            Nat.succ_mul, ← unpath_snoc]
          exact r3
        have hfr : ∀ a, a < st.heap.next → st2.heap.node a = st.heap.node a := by
          intro b hb'
          rw [r4 b (by have := q6.lo_le; omega)]; exact q3 b hb'
        have hpart := Part.join q6 r5 r4 (fun q b h => q7.supp h) (fun q b h => ((r6 q).1 ⟨b, h⟩).1)
        have hdom := q7.join r6
        unfold sparseBody
        rw [blockStart_eq (m := left + 1) (by omega) X.h9 hc]
        simp only [bind_ok, addUsize]
        rw [hblk, if_pos (by have := Nat.le_trans (Nat.le_add_right _ _) hle; omega)]
        simp only [bind_ok, r1]
        cases ho : loc2 (p ++ [c]) with
        | none =>
          rw [ho] at hcell
          simp only [pure_eq_ok]
          refine ⟨_, rfl, joinLoc (p ++ [c]) loc loc2, hpos2, hdat, hfr, ?_, ?_, hpart, hdom⟩
          · intro j hj
            simp only
            rw [q4 j hj]
            by_cases e : j = c
            · rw [e, hcnone, hcell]; rfl
            · rw [hother j e]
          · simp only
            rw [q5, List.range_succ, List.filterMap_append, hold]
            simp [hcell]
        | some a =>
          rw [ho] at hcell
          obtain ⟨m', b1, b2⟩ := setBitUnchecked_spec true v1.nodeMask hc
          have hlen : v1.childs.length < 64 := by
            have := filterMap_take_lt (f := cellsOf I.D (joinLoc (p ++ [c]) loc loc2) (KM I.D M) p)
              hc (by rw [hcell]; rfl)
            rw [hold, ← q5] at this
            have := filterMap_length_le (cellsOf I.D (joinLoc (p ++ [c]) loc loc2) (KM I.D M) p)
            omega
          simp only [b1, bind_ok]
          rw [if_pos hlen]
          simp only [pure_eq_ok]
          refine ⟨_, rfl, joinLoc (p ++ [c]) loc loc2, hpos2, hdat, hfr, ?_, ?_, hpart, hdom⟩
          · intro j hj
            simp only
            rw [b2 j hj, q4 j hj]
            by_cases e : j = c
            · subst e; rw [hcell]; simp
            · rw [hother j e]; simp [e]
          · simp only
            rw [q5, List.range_succ, List.filterMap_append, hold]
            simp [hcell])
      (by
        rintro c v1 hc hb ⟨loc, q1, q2, q3, q4, q5, q6, q7⟩
        rw [hw c hc] at hb
        have hno : ¬ LiveS I.D T (p ++ [c]) := fun h => by
          rw [h.bit] at hb; cases hb
        have hnb : ¬ Below 64 I.D M (p ++ [c]) := fun h =>
          hno (X.live_of_below h (by simp; omega))
        refine ⟨loc, q1, ?_, q3, q4, ?_, q6, q7.skip (fun q hq h => hno (h.mono hq))⟩
        · rw [Nat.succ_mul, ← Nat.add_assoc]
          refine q2.gap (fun r hr => ?_)
          cases hM : M (unpath 64 p * 64 ^ (left + 2) + c * 64 ^ (left + 1) + r) with
          | none => rfl
          | some v =>
            exfalso
            refine hnb (below_of_key (n := left + 1) (r := r) (ValidPath.append hv hc)
              (by simp; omega) hr ?_)
            rw [← hblk, hM]; rfl
        · rw [q5, List.range_succ, List.filterMap_append]
          have : cellsOf I.D loc (KM I.D M) p c = none := by
            rw [cellsOf_branch (by omega)]
            cases hloc : loc (p ++ [c]) with
            | none => rfl
            | some b => exact absurd (List.prefix_refl _) (q7.supp hloc).2.2
          simp [this])
    obtain ⟨loc, q1, q2, q3, q4, q5, q6, q7⟩ := t2
    have hdat : DataAt M v.st (unpath 64 p * 64 ^ (left + 2) + 64 ^ (left + 2)) := by
      have : 64 ^ (left + 2) = 64 * 64 ^ (left + 1) := by rw [Nat.pow_succ, Nat.mul_comm]
      rw [this] at q2 ⊢
      exact q2
    have hrun : ∀ r, (if v.childs.isEmpty then Except.ok (v.st, none) else do
        let e ← emptyNode (p.length + 1) I.D
        let (h, a) := fromParts v.st.heap v.nodeMask v.childs (.ptr e)
        return ({ v.st with heap := h }, some a)) = r →
        fromSparse I s (left + 1) st index (unpath 64 p * 64 ^ (left + 2)) = r := by
      intro r hr
      unfold fromSparse
      simp only
      rw [show I.D - 1 - (left + 1) = p.length by omega, e1]
      simp only [bind_ok, getU, List.getElem?_cons_zero]
      rw [t1]
      exact hr
    have hpn : loc p = none := by
      cases h : loc p with
      | none => rfl
      | some a => exact absurd rfl (q7.supp h).2.1
    by_cases hlive : LiveS I.D T p
    · obtain ⟨c, hc, hcl⟩ := hlive.child (by omega)
      obtain ⟨a, ha⟩ := (q7 (p ++ [c])).2 ⟨c, hc, List.prefix_refl _, hcl⟩
      have hne : v.childs.isEmpty = false := by
        have := filterMap_take_lt (f := cellsOf I.D loc (KM I.D M) p) hc (by
          rw [cellsOf_branch (by omega), ha]; rfl)
        rw [← q5] at this
        cases hcs : v.childs with
        | nil => rw [hcs] at this; simp at this
        | cons x xs => rfl
      refine ⟨{ v.st with heap := (v.st.heap.alloc ⟨.branch, v.nodeMask, (v.childs.length + 1) % 256,
        v.childs.length % 256, v.childs ++ [.ptr (.stat (9 - I.D + (p.length + 1)))]⟩).1 },
        upd loc p (some v.st.heap.next), hrun _ ?_, q1, hdat, ?_, ?_, q7.close (fun q h => h.valid) hlive _⟩
      · have hnine := X.h9
        rw [hne]
        simp only [Bool.false_eq_true, if_false, emptyNode]
        rw [if_pos (by omega)]
        simp only [bind_ok, pure_eq_ok, upd_same]
        rfl
      · intro b hb
        have := q6.lo_le
        exact (upd_ne _ _ (by omega)).trans (q3 b hb)
      · have hkind : kindOf I.D p = .branch := by unfold kindOf; rw [if_pos (by omega)]
        have hsent : sent I.D p = .ptr (.stat (9 - I.D + (p.length + 1))) := by
          unfold sent; rw [if_pos (by omega)]
        refine q6.add (fun q b h => ?_) (by rw [hkind]) ?_
        · have := q7.supp h
          exact ⟨this.1, this.2.1⟩
        · rw [hsent, q5]
          exact fromParts_rep q4
    · have hall : ∀ q, loc q = none := by
        intro q
        cases h : loc q with
        | none => rfl
        | some a =>
          obtain ⟨i, -, h1, h2⟩ := (q7 q).1 ⟨a, h⟩
          exact absurd (h2.mono (snoc_prefix_ne h1).1) hlive
      refine ⟨v.st, loc, hrun _ ?_, q1, hdat, q3, q6, ?_⟩
      · have : v.childs = [] := by
          rw [q5, List.filterMap_eq_nil_iff]
          intro i _
          rw [cellsOf_branch (by omega), hall]; rfl
        rw [this, hpn]; rfl
      · intro q
        rw [hall q]
        constructor
        · rintro ⟨_, h⟩; cases h
        · rintro ⟨h1, h2⟩; exact absurd (h2.mono h1) hlive

end

/-! ## The header length is not read by `get`, cursors, `key_values` and `drop` -/

/-- All headers repaired. -/
def fixHeap (h : Heap) : Heap := { h with node := fun a => (h.node a).map fixLen }

/-- The tree with all headers repaired. -/
def fixT {α : Type} (t : DT α) : DT α := { t with heap := fixHeap t.heap }

theorem fixLen_mask (n : Node) : (fixLen n).mask = n.mask := by unfold fixLen; split <;> rfl
theorem fixLen_cells (n : Node) : (fixLen n).cells = n.cells := by unfold fixLen; split <;> rfl
theorem fixLen_kind (n : Node) : (fixLen n).kind = n.kind := by unfold fixLen; split <;> rfl
theorem fixLen_cap (n : Node) : (fixLen n).cap = n.cap := by unfold fixLen; split <;> rfl

/-- A pointer reads the same node up to the length. -/
theorem deref_fix (h : Heap) (p : Ptr) :
    (∃ e, deref h p = .error e ∧ deref (fixHeap h) p = .error e) ∨
    ∃ n n', deref h p = .ok n ∧ deref (fixHeap h) p = .ok n' ∧ n'.mask = n.mask ∧
      n'.cells = n.cells ∧ n'.kind = n.kind ∧ n'.cap = n.cap := by
  cases p with
  | heap a =>
    simp only [deref, fixHeap]
    cases h.node a with
    | none => exact .inl ⟨_, rfl, rfl⟩
    | some n =>
      exact .inr ⟨n, fixLen n, rfl, rfl, fixLen_mask n, fixLen_cells n, fixLen_kind n, fixLen_cap n⟩
  | stat i =>
    simp only [deref]
    cases statNode i with
    | none => exact .inl ⟨_, rfl, rfl⟩
    | some n => exact .inr ⟨n, n, rfl, rfl, rfl, rfl, rfl, rfl⟩

theorem getChild_fix (h : Heap) (p : Ptr) (i : Nat) : getChild (fixHeap h) p i = getChild h p i := by
  unfold getChild
  rcases deref_fix h p with ⟨e, h1, h2⟩ | ⟨n, n', h1, h2, h3, h4, -⟩
  · rw [h1, h2]
  · rw [h1, h2]
    simp only [bind_ok, h3, h4]

theorem terminalLoop_fix (h : Heap) (P : List Nat) : ∀ (ns : List Nat) (p : Ptr),
    terminalLoop (fixHeap h) P ns p = terminalLoop h P ns p := by
  intro ns
  induction ns with
  | nil => intro p; rfl
  | cons n ns ih =>
    intro p
    unfold terminalLoop
    congr 1; funext i
    rw [getChild_fix]
    congr 1; funext c
    congr 1; funext q
    exact ih q

section
variable {α : Type} {D : Nat}

theorem treeData_fix (t : DT α) (index : Nat) (P : List Nat) :
    treeData D (fixT t) index P = treeData D t index P := by
  unfold treeData getTerminalNode
  simp only [fixT, terminalLoop_fix, getChild_fix]

theorem curSelect_fix (c : Cursor) (t : DT α) (n i : Nat) :
    curSelect D c (fixT t) n i = curSelect D c t n i := by
  have hm : ∀ (p : Ptr) (k : Node → R (Mask × Cursor)), (∀ a b : Node, a.mask = b.mask → k a = k b) →
      (deref (fixHeap t.heap) p >>= k) = (deref t.heap p >>= k) := by
    intro p k hk
    rcases deref_fix t.heap p with ⟨e, h1, h2⟩ | ⟨n, n', h1, h2, h3, -⟩
    · rw [h1, h2]
    · rw [h1, h2]; exact hk _ _ h3
  unfold curSelect
  by_cases h0 : n = 0
  · rw [if_pos h0, if_pos h0]
    exact hm _ _ (fun a b h => by rw [h])
  · rw [if_neg h0, if_neg h0]
    show (prevNode c t n >>= _) = _
    congr 1; funext prev
    refine (hm _ _ (fun a b h => ?_)).trans ?_
    · unfold Node.contains; rw [h]
    · congr 1; funext pn
      congr 1; funext b
      rw [show (fixT t).heap = fixHeap t.heap from rfl, getChild_fix]
      congr 1; funext cell
      congr 1; funext node
      have hrest : ∀ node, (do
          let c ← setU c (n - 1) (some node)
          let nn ← deref (fixHeap t.heap) node
          return ([nn.mask], c) : R (Mask × Cursor)) = (do
          let c ← setU c (n - 1) (some node)
          let nn ← deref t.heap node
          return ([nn.mask], c)) := by
        intro node
        congr 1; funext c
        exact hm _ _ (fun a b h => by rw [h])
      cases b with
      | true => exact hrest node
      | false =>
        simp only [Bool.false_eq_true, if_false]
        congr 1; funext node
        exact hrest node

theorem curSelectU_fix (c : Cursor) (t : DT α) (n i : Nat) :
    curSelectU c (fixT t) n i = curSelectU c t n i := by
  have hm : ∀ (p : Ptr) (k : Node → R (Mask × Cursor)), (∀ a b : Node, a.mask = b.mask → k a = k b) →
      (deref (fixHeap t.heap) p >>= k) = (deref t.heap p >>= k) := by
    intro p k hk
    rcases deref_fix t.heap p with ⟨e, h1, h2⟩ | ⟨n, n', h1, h2, h3, -⟩
    · rw [h1, h2]
    · rw [h1, h2]; exact hk _ _ h3
  unfold curSelectU
  by_cases h0 : n = 0
  · rw [if_pos h0, if_pos h0]
    exact hm _ _ (fun a b h => by rw [h])
  · rw [if_neg h0, if_neg h0]
    show (prevNode c t n >>= _) = _
    congr 1; funext prev
    rw [show (fixT t).heap = fixHeap t.heap from rfl, getChild_fix]
    congr 1; funext cell
    congr 1; funext node
    congr 1; funext c
    exact hm _ _ (fun a b h => by rw [h])

theorem curData_fix (c : Cursor) (t : DT α) (i : Nat) : curData D c (fixT t) i = curData D c t i := by
  unfold curData
  show (curTerminal D c t >>= _) = _
  congr 1; funext node
  show (deref (fixHeap t.heap) node >>= _) = _
  rcases deref_fix t.heap node with ⟨e, h1, h2⟩ | ⟨n, n', h1, h2, h3, -⟩
  · rw [h1, h2]; rfl
  · rw [h1, h2]
    simp only [bind_ok, Node.contains, h3]
    simp only [fixT, getChild_fix]

theorem curDataU_fix (c : Cursor) (t : DT α) (i : Nat) :
    curDataU D c (fixT t) i = curDataU D c t i := by
  unfold curDataU
  simp only [fixT, getChild_fix, curTerminal]

theorem keyValues_fix (t : DT α) : keyValues (fixT t) = keyValues t := rfl

theorem LawfulC.unfix {t : DT α} {e : Bool} {T : TreeSpec α} {Kr : CursorRel Cursor}
    (L : LawfulC { impl α D with exact := e } (fixT t) T Kr) :
    LawfulC { impl α D with exact := e } t T Kr where
  cfg := L.cfg
  wf := L.wf
  data_eq p hv hl := by
    have := L.data_eq p hv hl
    rw [← this]; exact (treeData_fix _ _ _).symm
  dataU_eq p d hv hl hd := by
    have := L.dataU_eq p d hv hl hd
    rw [← this]
    show _ = (do let d ← treeData D (fixT t) _ p; unwrapU d)
    rw [treeData_fix]; rfl
  new_ok := L.new_ok
  pos_inv := L.pos_inv
  posC_pos := L.posC_pos
  pos_take := L.pos_take
  select_root c i hc hi := by
    have := L.select_root c i hc hi
    simp only [impl, curSelect_fix] at this ⊢
    exact this
  selectU_root c i hc hi := by
    have := L.selectU_root c i hc hi
    simp only [impl, curSelectU_fix] at this ⊢
    exact this
  select_node c p i hc hv hi hp := by
    have := L.select_node c p i hc hv hi hp
    simp only [impl, curSelect_fix] at this ⊢
    exact this
  selectU_node c p i hc hv hi hp hb := by
    have := L.selectU_node c p i hc hv hi hp hb
    simp only [impl, curSelectU_fix] at this ⊢
    exact this
  curDataU_eq c p i d hc hv hi hp hd := by
    have := L.curDataU_eq c p i d hc hv hi hp hd
    simp only [impl, curDataU_fix] at this ⊢
    exact this
  curData_eq c p i hc hv hi hp := by
    have := L.curData_eq c p i hc hv hi hp
    simp only [impl, curData_fix] at this ⊢
    exact this

end

/-! ### drop -/

theorem dealloc_fix (h : Heap) (a : Nat) (k : Kind) (cap : Nat) :
    (fixHeap h).dealloc a k cap = (h.dealloc a k cap).map fixHeap := by
  unfold Heap.dealloc
  cases e : h.node a with
  | none => simp only [fixHeap, e]; rfl
  | some n =>
    simp only [fixHeap, e, Option.map_some, unwrapU, bind_ok, fixLen_kind, fixLen_cells]
    split
    · simp only [pure_eq_ok, Except.map]
      congr 2
      funext b
      by_cases hb : b = a
      · subst hb; simp
      · simp [upd_ne _ _ hb]
    · rfl

theorem dropNode_fix (h : Heap) (k : Kind) (p : Ptr) :
    dropNode (fixHeap h) k p = (dropNode h k p).map fixHeap := by
  unfold dropNode
  cases p with
  | stat i => rfl
  | heap a =>
    cases e : h.node a with
    | none => simp only [derefMut, fixHeap, e]; rfl
    | some n =>
      have e' : (fixHeap h).node a = some (fixLen n) := by simp [fixHeap, e]
      simp only [derefMut, e, e', unwrapU, bind_ok, pure_eq_ok, fixLen_cap, dealloc_fix]

theorem dropNodeWithChilds_fix : ∀ (r : Nat) (h : Heap) (p : Ptr),
    dropNodeWithChilds r (fixHeap h) p = (dropNodeWithChilds r h p).map fixHeap := by
  intro r
  induction r using Nat.strongRecOn with
  | ind r ih =>
    intro h p
    match r, ih with
    | 0, _ => rfl
    | 1, _ => exact dropNode_fix h .term p
    | r + 2, ih =>
      unfold dropNodeWithChilds
      have hfold : ∀ (l : List Nat) (h : Heap), l.foldlM (fun h i => do
            let c ← getChild h p i
            let q ← c.asPtr
            dropNodeWithChilds (r + 1) h q) (fixHeap h) = (l.foldlM (fun h i => do
            let c ← getChild h p i
            let q ← c.asPtr
            dropNodeWithChilds (r + 1) h q) h : R Heap).map fixHeap := by
        intro l
        induction l with
        | nil => intro h; rfl
        | cons i l ihl =>
          intro h
          rw [List.foldlM_cons, List.foldlM_cons, getChild_fix]
          obtain ⟨c, hc⟩ | ⟨e, he⟩ : (∃ c, getChild h p i = .ok c) ∨ ∃ e, getChild h p i = .error e := by
            cases getChild h p i with
            | ok x => exact .inl ⟨x, rfl⟩
            | error e => exact .inr ⟨e, rfl⟩
          · simp only [hc, bind_ok]
            cases hq : c.asPtr with
            | error e => rfl
            | ok q =>
              simp only [bind_ok]
              rw [ih (r + 1) (by omega) h q]
              cases hd : dropNodeWithChilds (r + 1) h q with
              | error e => rfl
              | ok h' =>
                simp only [Except.map, bind_ok]
                exact ihl h'
          · simp only [he]; rfl
      rcases deref_fix h p with ⟨e, h1, h2⟩ | ⟨n, n', h1, h2, h3, -⟩
      · rw [h1, h2]; rfl
      · rw [h1, h2]
        simp only [bind_ok, h3]
        rw [hfold]
        cases ((Mask.ones [n.mask]).foldlM (fun h i => do
            let c ← getChild h p i
            let q ← c.asPtr
            dropNodeWithChilds (r + 1) h q) h : R Heap) with
        | error e => rfl
        | ok h' => exact dropNode_fix h' .branch p

theorem dropImpl_unfix {α : Type} {D : Nat} {t : DT α} {vs : List α} {h' : Heap}
    (h : dropImpl D (fixT t) = .ok (vs, h')) (hz : ∀ a, h'.node a = none) :
    ∃ h'', dropImpl D t = .ok (vs, h'') ∧ ∀ a, h''.node a = none := by
  unfold dropImpl at h ⊢
  by_cases hc : 1 ≤ t.data.length
  · rw [if_pos (show 1 ≤ (fixT t).data.length from hc)] at h
    rw [if_pos hc]
    simp only [fixT] at h
    cases hv : dropSlice (t.data.drop 1) with
    | error e => rw [hv] at h; cases h
    | ok ws =>
      rw [hv] at h
      simp only [bind_ok, dropNodeWithChilds_fix] at h
      cases hd : dropNodeWithChilds D t.heap t.root with
      | error e => rw [hd] at h; cases h
      | ok h2 =>
        rw [hd] at h
        simp only [Except.map, bind_ok, pure_eq_ok, Except.ok.injEq, Prod.mk.injEq] at h
        refine ⟨h2, ?_, ?_⟩
        · simp only [bind_ok, pure_eq_ok, h.1]
        · intro a
          have := hz a
          rw [← h.2] at this
          simpa [fixHeap] using this
  · rw [if_neg (show ¬ 1 ≤ (fixT t).data.length from hc)] at h; cases h

section
variable {S C α : Type} {I : Impl S C α} {s : S} {T : TreeSpec α} {Kr : CursorRel C}
  {M : Nat → Option α}

/-- Materializing an inexact tree: undefined behaviour if there is no marked terminal node;
otherwise a tree representing the content, up to the header lengths. -/
theorem materialize_sparse_loc (X : Src I s T Kr M) (hex : I.exact = false)
    (hout : ∀ k, 64 ^ I.D ≤ k → M k = none) :
    (¬ LiveS I.D T [] → materialize I s = .error .ub) ∧
    (LiveS I.D T [] → ∃ t loc, materialize I s = .ok t ∧
      DS NoNode I.D (fixT t) M loc (KM I.D M) ∧ (∀ p, (∃ a, loc p = some a) ↔ LiveS I.D T p) ∧
      t.keys = (usizeMod - 1) :: keysOf (64 ^ I.D) M ∧
      t.data = none :: (valuesOf (64 ^ I.D) M).map some) := by
  have hD := X.L.cfg.depth
  obtain ⟨c, e0, hi⟩ := X.L.new_ok
  obtain ⟨st, loc, e1, -, hd, -, hP, hdom⟩ := fromSparse_spec X (I.D - 1) [] 0
    ⟨⟨fun _ => none, 0⟩, c, [none], [usizeMod - 1]⟩ (by simp; omega) ValidPath.nil
    (fun r i h => by simp at h) (.inl ⟨rfl, rfl, hi⟩) (fun _ _ => rfl)
    (by simp [DataAt, valuesOf, keysOf])
  rw [show I.D - 1 + 1 = I.D by omega] at hd e1
  simp only [unpath_nil, Nat.zero_mul, Nat.zero_add] at hd e1
  have hmat : ∀ o, loc [] = o → materialize I s = (do
      let a ← unwrapU o
      return ⟨st.heap, .heap a, st.data, st.keys⟩) := by
    intro o ho
    unfold materialize fromRoot
    rw [e0]
    simp only [bind_ok]
    rw [if_neg (by simp [hex]), e1, ho]
    cases o <;> rfl
  constructor
  · intro hn
    have : loc [] = none := by
      cases h : loc [] with
      | none => rfl
      | some a => exact absurd ((hdom []).1 ⟨a, h⟩).2 hn
    rw [hmat _ this]; rfl
  · intro hl
    obtain ⟨a, ha⟩ := (hdom []).2 ⟨List.prefix_refl _, hl⟩
    have hlive : ∀ p a, loc p = some a → LiveS I.D T p := fun p a h => ((hdom p).1 ⟨a, h⟩).2
    refine ⟨⟨st.heap, .heap a, st.data, st.keys⟩, loc, by rw [hmat _ ha]; rfl, ⟨?_, ?_, ?_, ?_⟩,
      fun p => ⟨fun ⟨b, hb⟩ => hlive p b hb, fun h => (hdom p).2 ⟨List.nil_prefix, h⟩⟩, hd.2, hd.1⟩
    · refine ⟨⟨?_, hP.inj, ?_, ?_⟩, ⟨a, ha, rfl⟩, ?_, ?_, ?_, ?_⟩
      · intro p b h
        obtain ⟨-, n, h1, h2, h3⟩ := hP.node p b h
        exact ⟨fixLen n, by simp [fixT, fixHeap, h1], by rw [fixLen_kind]; exact h2, h3⟩
      · intro b n h
        simp only [fixT, fixHeap, Option.map_eq_some_iff] at h
        obtain ⟨m, h1, -⟩ := h
        exact hP.cover b m (Nat.zero_le _) h1
      · intro b hb
        have : st.heap.node b = none := hP.fresh b hb
        simp [fixT, fixHeap, this]
      · intro p b h
        exact ⟨(hlive p b h).valid, (hlive p b h).len⟩
      · intro p i b h
        exact (hdom p).2 ⟨List.nil_prefix, (hlive _ b h).mono (List.prefix_append p [i])⟩
      · intro P d h
        obtain ⟨h1, h2, -⟩ := KM_some h
        exact ⟨h1, h2⟩
      · intro p i d h
        obtain ⟨h1, h2, h3, -⟩ := KM_some h
        exact (hdom p).2 ⟨List.nil_prefix, X.live_of_below ⟨[i], h1, h2, h3⟩ (by simp at h2; omega)⟩
    · intro _ _ h; exact h.elim
    · simp only [fixT]
      rw [hd.1, hd.2]
      exact DInv.listing X.room
    · intro k
      simp only [fixT, hd.1]
      exact den_listing hout k

/-- `materialize_sparse_loc` without the positions of the nodes. -/
theorem materialize_sparse (X : Src I s T Kr M) (hex : I.exact = false)
    (hout : ∀ k, 64 ^ I.D ≤ k → M k = none) :
    (¬ LiveS I.D T [] → materialize I s = .error .ub) ∧
    (LiveS I.D T [] → ∃ t, materialize I s = .ok t ∧ DRep NoNode I.D (fixT t) M ∧
      t.keys = (usizeMod - 1) :: keysOf (64 ^ I.D) M ∧
      t.data = none :: (valuesOf (64 ^ I.D) M).map some) := by
  obtain ⟨h1, h2⟩ := materialize_sparse_loc X hex hout
  refine ⟨h1, fun hl => ?_⟩
  obtain ⟨t, loc, e, S, -, e1, e2⟩ := h2 hl
  exact ⟨t, e, ⟨loc, _, S⟩, e1, e2⟩

end

end Hibit.Dense
