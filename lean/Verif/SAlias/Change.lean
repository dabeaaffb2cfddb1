import Verif.SAlias.Ops
/-!
# Insertion, removal and histories keep their borrows
-/
namespace Hibit.SAlias
open Hibit Hibit.Sparse
open Hibit.Alias (Perm Item Acc Tag)
open Hibit.Typed (GLevel BPtr GT Rel)

theorem insertEmpty_inv {N i : Nat} {L L' : GLevel} (h : L.insertEmpty N = .ok (i, L')) :
    L'.gen = L.gen → i < L.level.blocks.length := by
  intro hg
  unfold GLevel.insertEmpty at h
  obtain ⟨⟨i', M⟩, e, h⟩ := bind_inv h
  cases h
  simp only at hg
  unfold Level.insertEmpty at e
  split at e
  · cases e
  · obtain ⟨⟨o, K⟩, e1, e⟩ := bind_inv e
    unfold Level.popEmpty at e1
    split at e1
    · cases e1
      cases e
      simp at hg
    · obtain ⟨b, eb, e1⟩ := bind_inv e1
      obtain ⟨nx, -, e1⟩ := bind_inv e1
      obtain ⟨mk, -, e1⟩ := bind_inv e1
      obtain ⟨bl, -, e1⟩ := bind_inv e1
      cases e1
      cases e
      exact getU_lt eb

theorem head_ne_block {n g pos : Nat} (hn : n ≠ 0) : Place.head n ≠ blockPlace n g pos := by
  unfold blockPlace
  rw [if_neg hn]
  intro h; cases h

theorem popBlock_spec {i : Item} {xs : List Item} {n pos : Nat} {L : GLevel} {z : St} (hi : i.perm = .uniq) (hn : n ≠ 0)
    (hpos : pos < L.level.blocks.length) (h : Ch z (.head n) (i :: xs)) :
    ∃ z', popBlock n L pos (some i.tag) z = .ok z' ∧ Ch z' (.head n) (i :: xs) ∧ Fr n z z' := by
  obtain ⟨b, z1, e1, h1, hb1, f1, -⟩ := blockRef_spec (pm := .uniq) (fun _ => hi) hpos h
  obtain ⟨u, z2, e2, h2, f2, -⟩ := retag_one (pm := .uniq) (Perm.le_self .uniq b) hb1
  obtain ⟨z3, e3, h3, f3, -⟩ := touch_spec (pm := .shared) (Perm.le_shared ⟨.uniq, u⟩) h2
  have hd3 : Ch z3 (.head n) (i :: xs) :=
    ch_of_eq ((f3 _ (head_ne_block hn)).trans (f2 _ (head_ne_block hn))) h1
  obtain ⟨z4, e4, h4, f4, -⟩ := touch_spec (pm := .uniq) (fun _ => hi) hd3
  have hb4 := ch_of_eq (f4 _ (head_ne_block hn).symm) h3.tail
  obtain ⟨z5, e5, h5, f5⟩ := writeBlock_spec rfl hb4
  refine ⟨z5, ?_, ch_of_eq (f5 _ (head_ne_block hn)) h4, ?_⟩
  · unfold popBlock
    have e2' : retag .uniq (some b) [blockPlace n L.gen pos] z1 = .ok (some u, z2) := e2
    have e3' : touch (blockPlace n L.gen pos) .read (some u) z2 = .ok z3 := e3
    have e4' : touch (.head n) .write (some i.tag) z3 = .ok z4 := e4
    rw [e1]; simp only [bind_ok]
    rw [e2']; simp only [bind_ok]
    rw [e3']; simp only [bind_ok]
    have l1 : leave (some u) [blockPlace n L.gen pos] z3 = .ok () := leave_one h3
    rw [l1]; simp only [bind_ok]
    rw [e4']; exact e5
  · exact (((f1.trans (Fr.of f2 (At.block _ _ _))).trans (Fr.of f3 (At.block _ _ _))).trans (Fr.of f4 rfl)).trans
      (Fr.of f5 (At.block _ _ _))

theorem pushBlock_spec {i : Item} {xs : List Item} {n : Nat} {L L' : GLevel} {z : St} (hi : i.perm = .uniq)
    (h : Ch z (.head n) (i :: xs)) :
    ∃ z', pushBlock n L L' (some i.tag) z = .ok z' ∧ Ch z' (.head n) (i :: xs) ∧ Fr n z z' := by
  obtain ⟨a, z1, e1, h1, f1, -⟩ := retag_one (pm := .uniq) (fun _ => hi) h
  obtain ⟨b, z2, e2, h2, f2, -⟩ := retag_none .uniq (buffer n L) z1
  have hne : ∀ q ∈ buffer n L, ∃ p, q = .blk n L.gen p := by
    intro q hq
    obtain ⟨p, -, rfl⟩ := List.mem_map.1 hq
    exact ⟨p, rfl⟩
  have hd2 : Ch z2 (.head n) (⟨.uniq, a⟩ :: i :: xs) := ch_of_eq (f2 _ (fun h => by
    obtain ⟨p, hq⟩ := hne _ h
    cases hq)) h1
  have F2 : Fr n z1 z2 := fun q hq => f2 q (fun h => by
    obtain ⟨p, rfl⟩ := hne q h
    exact hq rfl)
  obtain ⟨z3, e3, h3, f3, -⟩ := touch_spec (pm := .uniq) (Perm.le_self .uniq a) hd2
  refine ⟨{ z3 with stk := fun pl => match pl with
    | .blk m g p => if m = n ∧ g = L'.gen then [] else z3.stk (.blk m g p)
    | pl => z3.stk pl }, ?_, h3.tail, ?_⟩
  · unfold pushBlock
    have e3' : touch (.head n) .write (some a) z2 = .ok z3 := e3
    rw [e1]; simp only [bind_ok]
    rw [e2]; simp only [bind_ok]
    rw [e3']; simp only [bind_ok]
    have l1 : leave (some a) [.head n] z3 = .ok () := leave_one h3
    rw [l1]; rfl
  · refine (((Fr.of f1 rfl).trans F2).trans (Fr.of f3 rfl)).trans ?_
    intro q hq
    cases q with
    | blk m g p =>
      have hm : m ≠ n := hq
      show (if m = n ∧ g = L'.gen then [] else z3.stk (.blk m g p)) = _
      rw [if_neg (fun h => hm h.1)]
    | _ => rfl

theorem insertEmpty_rel (N : Nat) {n : Nat} (hn : n ≠ 0) (L : GLevel) {i : Item} {xs : List Item} {z : St}
    (hi : i.perm = .uniq) (h : Ch z (.head n) (i :: xs)) :
    Rel (fun a r => r.1.1 = a.1 ∧ r.2 = a.2 ∧ Ch r.1.2 (.head n) (i :: xs) ∧ Fr n z r.1.2)
      (L.insertEmpty N) (insertEmpty N n L (some i.tag) z) := by
  unfold insertEmpty
  cases hL : L.insertEmpty N with
  | error e => exact .err
  | ok a =>
    obtain ⟨p, L'⟩ := a
    obtain ⟨a, z1, e1, h1, f1, -⟩ := retag_one (pm := .uniq) (fun _ => hi) h
    obtain ⟨b, z2, e2, h2, f2, -⟩ := retag_one (pm := .uniq) (Perm.le_self .uniq a) h1
    obtain ⟨z3, e3, h3, f3, -⟩ := touch_spec (pm := .shared) (Perm.le_shared ⟨.uniq, b⟩) h2
    have F : Fr n z z3 := ((Fr.of f1 rfl).trans (Fr.of f2 rfl)).trans (Fr.of f3 rfl)
    refine Rel.skip rfl (Rel.skip e1 (Rel.skip e2 (Rel.skip e3 ?_)))
    split
    · rename_i hg
      obtain ⟨z4, e4, h4, f4⟩ := popBlock_spec (i := ⟨.uniq, b⟩) rfl hn (insertEmpty_inv hL hg) h3
      exact Rel.skip e4 (Rel.skip (leave_one h4) (Rel.skip (leave_one h4.tail) (.ok ⟨rfl, rfl, h4.tail.tail, F.trans f4⟩)))
    · obtain ⟨z4, e4, h4, f4⟩ := pushBlock_spec (i := ⟨.uniq, a⟩) (L := L) (L' := L') rfl h3.tail
      exact Rel.skip (leave_one h3) (Rel.skip e4 (Rel.skip (leave_one h4) (.ok ⟨rfl, rfl, h4.tail, F.trans f4⟩)))

theorem removeEmpty_spec {i : Item} {xs : List Item} {n pos : Nat} {L : GLevel} {z : St} (hi : i.perm = .uniq)
    (hn : n ≠ 0) (hpos : pos < L.level.blocks.length) (h : Ch z (.head n) (i :: xs)) :
    ∃ z', removeEmpty n L pos (some i.tag) z = .ok z' ∧ Ch z' (.head n) (i :: xs) ∧ Fr n z z' := by
  obtain ⟨c, y1, d1, k1, g1, -⟩ := retag_one (pm := .uniq) (fun _ => hi) h
  obtain ⟨d, y2, d2, k2, g2, -⟩ := retag_one (pm := .uniq) (Perm.le_self .uniq c) k1
  obtain ⟨b, z1, e1, h1, hb1, f1, -⟩ := blockRef_spec (pm := .uniq) (Perm.le_self .uniq d) hpos k2
  obtain ⟨u, z2, e2, h2, f2, -⟩ := retag_one (pm := .uniq) (Perm.le_self .uniq b) hb1
  have hd2 := ch_of_eq (f2 _ (head_ne_block hn)) h1
  obtain ⟨z3, e3, h3, f3, -⟩ := touch_spec (pm := .shared) (Perm.le_shared ⟨.uniq, d⟩) hd2
  have hb3 := ch_of_eq (f3 _ (head_ne_block hn).symm) h2
  obtain ⟨z4, e4, h4, f4, -⟩ := touch_spec (pm := .uniq) (Perm.le_self .uniq u) hb3
  have hd4 := ch_of_eq (f4 _ (head_ne_block hn)) h3
  obtain ⟨z5, e5, h5, f5, -⟩ := touch_spec (pm := .uniq) (Perm.le_self .uniq d) hd4
  refine ⟨z5, ?_, h5.tail.tail, ?_⟩
  · unfold removeEmpty
    have d2' : retag .uniq (some c) [.head n] y1 = .ok (some d, y2) := d2
    have e1' : blockRef .uniq n L pos (some d) y2 = .ok (some b, z1) := e1
    have e2' : retag .uniq (some b) [blockPlace n L.gen pos] z1 = .ok (some u, z2) := e2
    have e3' : touch (.head n) .read (some d) z2 = .ok z3 := e3
    have e4' : touch (blockPlace n L.gen pos) .write (some u) z3 = .ok z4 := e4
    rw [d1]; simp only [bind_ok]
    rw [d2']; simp only [bind_ok]
    rw [e1']; simp only [bind_ok]
    rw [e2']; simp only [bind_ok]
    rw [e3']; simp only [bind_ok]
    rw [e4']; simp only [bind_ok]
    have l1 : leave (some u) [blockPlace n L.gen pos] z4 = .ok () := leave_one h4
    have e5' : touch (.head n) .write (some d) z4 = .ok z5 := e5
    have l2 : leave (some d) [.head n] z5 = .ok () := leave_one h5
    have l3 : leave (some c) [.head n] z5 = .ok () := leave_one h5.tail
    rw [l1]; simp only [bind_ok]
    rw [e5']; simp only [bind_ok, l2, l3, pure_eq_ok]
  · exact ((((((Fr.of g1 rfl).trans (Fr.of g2 rfl)).trans f1).trans (Fr.of f2 (At.block _ _ _))).trans
      (Fr.of f3 rfl)).trans (Fr.of f4 (At.block _ _ _))).trans (Fr.of f5 rfl)

/-! ## Insertion -/

theorem visitMut_rel {β γ : Type} {lv : List GLevel} {n : Nat} {f : Nat → GLevel → R (β × GLevel)}
    {f' : Nat → GLevel → R (γ × GLevel)} {Q : β → γ → Prop}
    (h : ∀ L, getP lv n = .ok L → Rel (fun a b => Q a.1 b.1 ∧ b.2 = a.2) (f n L) (f' n L)) :
    Rel (fun a b => Q a.1 b.1 ∧ b.2 = a.2 ∧ a.2.length = lv.length) (Typed.visitMut lv n f) (Typed.visitMut lv n f') := by
  unfold Typed.visitMut
  have key : ∀ js, Rel (fun a b => Q a.1 b.1 ∧ b.2 = a.2 ∧ a.2.length = lv.length)
      (Typed.matchArms n (fun j => do
        let L ← getP lv j
        let (b, L) ← f n L
        return (b, lv.set j L)) js)
      (Typed.matchArms n (fun j => do
        let L ← getP lv j
        let (b, L) ← f' n L
        return (b, lv.set j L)) js) := by
    intro js
    induction js with
    | nil => exact .err
    | cons j js ih =>
      unfold Typed.matchArms
      refine Rel.ite (fun e => ?_) fun _ => ih
      subst e
      refine Rel.same fun L eL => Rel.bind (h L eL) fun a b ⟨q, e⟩ => ?_
      obtain ⟨a1, a2⟩ := a
      obtain ⟨b1, b2⟩ := b
      simp only at e q
      subst e
      exact .ok ⟨q, rfl, by simp⟩
  exact key _

theorem insertChild_length {lv lv' : List GLevel} {n : Nat} {p : BPtr} {k item : Nat}
    (h : p.insertChild lv n k item = .ok lv') : lv'.length = lv.length := by
  unfold BPtr.insertChild Typed.visitType at h
  obtain ⟨ty, -, h⟩ := bind_inv (matchArms_inv h)
  obtain ⟨b, -, h⟩ := bind_inv h
  obtain ⟨b, -, h⟩ := bind_inv h
  unfold Typed.writeAs at h
  split at h
  · split at h
    · obtain ⟨bl, -, h⟩ := bind_inv h
      cases h
      simp
    · cases h
  · cases h

/-- Insertion steps agree, and the tree stays borrowed. -/
def StR (D : Nat) (is : List Item) (s : List GLevel × Nat) (s' : (List GLevel × Nat) × St) : Prop :=
  s'.1 = s ∧ s.1.length = D ∧ Own D s'.2 is

theorem insertStep_rel (N : Nat) (li : List Nat) {D : Nat} {i : Item} {ys : List Item} (hi : i.perm = .uniq)
    {s : List GLevel × Nat} {s' : (List GLevel × Nat) × St} (hs : StR D (i :: ys) s s') (n : Nat) :
    Rel (fun a b => StR D (i :: ys) a.1 b.1 ∧ a.2 = b.2) (Typed.insertStep N li s n)
      (insertStep N li (some i.tag) s' n) := by
  obtain ⟨rfl, hl, ho⟩ := hs
  obtain ⟨⟨lv, pos⟩, z⟩ := s'
  simp only at hl ho
  subst hl
  unfold insertStep Typed.insertStep
  refine Rel.same fun inner _ => ?_
  refine Rel.bind (getBlock_rel (Perm.le_shared i) ho n pos) fun p r ⟨ep, hv, o1, _⟩ => ?_
  obtain ⟨r1, z1⟩ := r
  simp only at ep hv o1
  subst ep
  refine Rel.bind (getChild_rel hv inner) fun c r ⟨ec, _, o2, _⟩ => ?_
  obtain ⟨r2, z2⟩ := r
  simp only at ec o2
  subst ec
  have o2 := o2 _ o1
  refine Rel.ite (fun _ => ?_) fun _ => .ok ⟨⟨rfl, rfl, o2⟩, rfl⟩
  obtain ⟨u, z3, e3, T, -⟩ := tup_retag (pm := .uniq) o2 (fun _ => hi) o2 (List.Sublist.refl _)
  refine Rel.skip e3 ?_
  refine Rel.bind (visitMut_rel (Q := fun (a : Nat) (b : Nat × St) => b.1 = a ∧
    Tup lv.length b.2 ⟨.uniq, u⟩ (i :: ys) (i :: ys)) ?_) fun a b ⟨⟨q1, q2⟩, q3, q4⟩ => ?_
  · intro L eL
    obtain ⟨w, z4, e4, h4, f4, -⟩ := retag_one (pm := .uniq) (Perm.le_self .uniq u) (T.heads (n + 1) (getP_lt eL))
    refine Rel.skip e4 ?_
    have := insertEmpty_rel N (Nat.succ_ne_zero n) L (i := ⟨.uniq, w⟩) rfl h4
    revert this
    show Rel _ (L.insertEmpty N) (insertEmpty N (n + 1) L (some w) z4) →
      Rel _ (L.insertEmpty N) (insertEmpty N (n + 1) L (some w) z4 >>= _)
    generalize L.insertEmpty N = x
    generalize insertEmpty N (n + 1) L (some w) z4 = y
    intro h
    cases h with
    | @ok _ r q =>
      obtain ⟨⟨r1, r2⟩, r3⟩ := r
      obtain ⟨q1, q2, q3, q4⟩ := q
      exact Rel.skip rfl (Rel.skip (leave_one q3)
        (.ok ⟨⟨q1, T.fr (List.Sublist.refl _) ((Fr.of f4 rfl).trans q4) q3.tail⟩, q2⟩))
    | err => exact .err
  · obtain ⟨new, lv1⟩ := a
    obtain ⟨⟨new', z5⟩, lv2⟩ := b
    simp only at q1 q2 q3 q4
    subst q1 q3
    simp only
    refine Rel.skip (leave_tup (q4 ▸ q2)) ?_
    have q2 := q2.own
    rw [← q4] at q2
    refine Rel.bind (getBlock_rel (pm := .uniq) (fun _ => hi) q2 n pos) fun p r ⟨ep, hv, o6, _⟩ => ?_
    obtain ⟨r6, z6⟩ := r
    simp only at ep hv o6
    subst ep
    have hins := insertChild_rel (lv := lv2) hv inner new'
    simp only
    cases hc : r6.ptr.insertChild lv2 n inner new' with
    | error e =>
      rw [hc] at hins
      generalize r6.insertChild lv2 n inner new' z6 = y at hins ⊢
      cases hins
      exact .err
    | ok lv3 =>
      rw [hc] at hins
      generalize r6.insertChild lv2 n inner new' z6 = y at hins ⊢
      cases hins with
      | @ok _ b q =>
        obtain ⟨b1, b2⟩ := b
        obtain ⟨q, o7⟩ := q
        have o7 := o7 _ o6
        have hlen := insertChild_length hc
        simp only at q o7
        subst q
        simp only [bind_ok]
        rw [q4] at o7 hlen
        exact .ok ⟨⟨rfl, hlen, o7⟩, rfl⟩

variable {α : Type}

theorem getOrInsertImpl_rel (N : Nat) {D : Nat} (h1 : 1 ≤ D) (h8 : D ≤ 8) {g : GT α} (hl : g.levels.length = D) {z : St}
    {i : Item} {ys : List Item} (hi : i.perm = .uniq) (ho : Own D z (i :: ys)) (index : Nat) (ins : Bool) (value : α) :
    Rel (fun a r => r.1 = a ∧ Own D r.2 (i :: ys)) (Typed.getOrInsertImpl N D g index ins value)
      (getOrInsertImpl N D g (some i.tag) index ins value z) := by
  subst hl
  obtain ⟨t, z1, e1, o1, -, -⟩ := own_retag (pm := .uniq) (fun _ => hi) ho
  unfold getOrInsertImpl Typed.getOrInsertImpl
  refine Rel.skip e1 ?_
  refine Rel.same fun li _ => Rel.same fun inner _ => ?_
  rw [constLoop_eq _ _ _ _ (by omega) (by omega), constLoop_eq _ _ _ _ (by omega) (by omega)]
  refine Rel.bind (Typed.visitList_rel (P := StR g.levels.length (⟨.uniq, t⟩ :: i :: ys))
    (fun s s' n h => insertStep_rel N li (i := ⟨.uniq, t⟩) rfl h n) _ (g.levels, 0) ((g.levels, 0), z1)
    ⟨rfl, rfl, o1⟩) fun a b ⟨⟨e, hlen, o⟩, _⟩ => ?_
  obtain ⟨⟨lv, bi⟩, _⟩ := a
  obtain ⟨⟨⟨lv', bi'⟩, z2⟩, _⟩ := b
  simp only at e hlen o
  cases e
  simp only
  rw [← hlen] at o
  have hval : ∀ n, Place.values ∈ inline n := mem_values
  refine Rel.bind (getBlock_rel (pm := .uniq) (Perm.le_self .uniq t) o (g.levels.length - 1) bi)
    fun p r ⟨ep, hv, o3, _⟩ => ?_
  obtain ⟨r3, z3⟩ := r
  simp only at ep hv o3
  subst ep
  refine Rel.bind (getChild_rel hv inner) fun c r ⟨ec, hv4, o4, _⟩ => ?_
  obtain ⟨r4, z4⟩ := r
  simp only at ec o4 hv4
  subst ec
  have o4 := o4 _ o3
  refine Rel.ite (fun _ => ?_) fun _ => ?_
  · obtain ⟨z5, e5, o5, f5, -⟩ := field_own (Perm.le_shared ⟨.uniq, t⟩) o4 (mem_values _)
    obtain ⟨z6, e6, o6, f6, -⟩ := field_own (Perm.le_self .uniq t) o5 (mem_values _)
    obtain ⟨z7, e7, o7, f7, -⟩ := field_own (Perm.le_self .uniq t) o6 (mem_keys _)
    obtain ⟨z8, e8, o8, f8, -⟩ := field_own (Perm.le_self .uniq t) o7 (mem_last _)
    refine Rel.skip e5 (Rel.skip e6 (Rel.skip e7 (Rel.skip e8 ?_)))
    have hne : r3.place ≠ .values ∧ r3.place ≠ .keys ∧ r3.place ≠ .last := by
      unfold TPtr.place blockPlace
      split <;> exact ⟨(nomatch ·), (nomatch ·), (nomatch ·)⟩
    have hv8 : Valid z8 .uniq (g.levels.length - 1) (⟨.uniq, t⟩ :: i :: ys) r3 := by
      obtain ⟨hl, q, hq, hc⟩ := hv4
      refine ⟨hl, q, hq, ch_of_eq ?_ hc⟩
      exact (((f8 _ hne.2.2).trans (f7 _ hne.2.1)).trans (f6 _ hne.1)).trans (f5 _ hne.1)
    refine Rel.bind (insertChild_rel hv8 inner g.values.length) fun c r ⟨ec, o9⟩ => ?_
    obtain ⟨r9, z9⟩ := r
    simp only at ec o9
    subst ec
    obtain ⟨z10, e10, o10, -, -⟩ := field_own (Perm.le_self .uniq t) (o9 _ o8) (mem_values _)
    rw [hlen] at o10
    exact Rel.skip e10 (Rel.skip (leave_own o10) (.ok ⟨rfl, o10.tail⟩))
  · refine Rel.same fun old _ => Rel.same fun old _ => ?_
    obtain ⟨z5, e5, o5, f5, -⟩ := field_own (Perm.le_self .uniq t) o4 (mem_values _)
    refine Rel.ite (fun _ => Rel.same fun vs _ => ?_) fun _ => ?_
    · obtain ⟨z6, e6, o6, f6, -⟩ := field_own (Perm.le_self .uniq t) o5 (mem_values _)
      exact Rel.skip e5 (Rel.skip e6 (Rel.skip (leave_own o6) (.ok ⟨rfl, hlen ▸ o6.tail⟩)))
    · exact Rel.skip e5 (Rel.skip (leave_own o5) (.ok ⟨rfl, hlen ▸ o5.tail⟩))

/-! ## Removal -/

theorem foldMut_rel {σ τ : Type} {P : σ → τ → Prop} {v : σ → Nat → GLevel → R ((σ × GLevel) × Bool)}
    {w : τ → Nat → GLevel → R ((τ × GLevel) × Bool)} {D : Nat}
    (hv : ∀ s t k L, k < D → P s t →
      Rel (fun a b => P a.1.1 b.1.1 ∧ b.1.2 = a.1.2 ∧ b.2 = a.2) (v s k L) (w t k L)) :
    ∀ (l : List Nat) (s : σ) (t : τ) (lv : List GLevel), lv.length = D → P s t →
      Rel (fun a b => P a.1 b.1 ∧ b.2 = a.2 ∧ a.2.length = D) (Typed.foldMutArms v l s lv)
        (Typed.foldMutArms w l t lv)
  | [], s, t, lv, hl, h => .ok ⟨h, rfl, hl⟩
  | k :: l, s, t, lv, hl, h => by
    unfold Typed.foldMutArms
    refine Rel.same fun L eL => ?_
    refine Rel.bind (hv s t k L (hl ▸ getP_lt eL) h) fun a b ⟨h', e1, e2⟩ => ?_
    obtain ⟨⟨s', L1⟩, ba⟩ := a
    obtain ⟨⟨t', L2⟩, bb⟩ := b
    simp only at e1 e2 h'
    subst e1 e2
    exact Rel.ite (fun _ => .ok ⟨h', rfl, by simpa using hl⟩)
      fun _ => foldMut_rel hv l s' t' _ (by simpa using hl) h'

theorem removeVisit_inv {li lbi : List Nat} {n : Nat} {L : GLevel} {a : (Unit × GLevel) × Bool}
    (h : Typed.removeVisit li lbi n L = .ok a) :
    ∃ bi, visitedBlock lbi n = .ok bi ∧ bi < L.level.blocks.length := by
  unfold Typed.removeVisit at h
  unfold visitedBlock
  by_cases hn : n = 0
  · rw [if_pos hn] at h ⊢
    simp only [pure_eq_ok, bind_ok] at h
    obtain ⟨b, eb, -⟩ := bind_inv h
    exact ⟨0, rfl, getU_lt eb⟩
  · rw [if_neg hn] at h ⊢
    obtain ⟨bi, e, h⟩ := bind_inv h
    obtain ⟨b, eb, -⟩ := bind_inv h
    exact ⟨bi, e, getU_lt eb⟩

theorem removeVisit_rel (li lbi : List Nat) {D : Nat} {c : Item} {xs is : List Item} (hc : c.perm = .uniq)
    (hx : is.Sublist xs) (z : St) (n : Nat) (L : GLevel) (hn : n < D) (T : Tup D z c xs is) :
    Rel (fun a b => Tup D b.1.1 c xs is ∧ b.1.2 = a.1.2 ∧ b.2 = a.2) (Typed.removeVisit li lbi n L)
      (removeVisit li lbi (some c.tag) z n L) := by
  unfold removeVisit
  cases hr : Typed.removeVisit li lbi n L with
  | error e => exact .err
  | ok a =>
    obtain ⟨bi, ebi, hbi⟩ := removeVisit_inv hr
    obtain ⟨⟨u, L'⟩, brk⟩ := a
    obtain ⟨w, z1, e1, h1, f1, -⟩ := retag_one (pm := .uniq) (fun _ => hc) (T.heads n hn)
    obtain ⟨b, z2, e2, h2, hb2, f2, -⟩ := blockRef_spec (L := L) (Perm.le_self .uniq w) hbi h1
    obtain ⟨z3, e3, h3, f3⟩ := writeBlock_spec rfl hb2
    obtain ⟨z4, e4, h4, f4, -⟩ := readBlock_spec h3
    have F : Fr n z z4 := (((Fr.of f1 rfl).trans f2).trans (Fr.of f3 (At.block _ _ _))).trans
      (Fr.of f4 (At.block _ _ _))
    have hd : Ch z4 (.head n) (⟨.uniq, w⟩ :: c :: xs) := by
      by_cases h0 : n = 0
      · subst h0
        have h4' : Ch z4 (.head 0) _ := h4
        exact h4'.tail
      · exact ch_of_eq ((f4 _ (head_ne_block h0)).trans (f3 _ (head_ne_block h0))) h2
    refine Rel.skip rfl (Rel.skip ebi (Rel.skip e1 (Rel.skip e2 (Rel.skip e3 (Rel.skip e4 ?_)))))
    cases brk with
    | true => exact Rel.skip (leave_one hd) (.ok ⟨T.fr hx F hd.tail, rfl, rfl⟩)
    | false =>
      simp only [Bool.false_eq_true, if_false]
      by_cases h0 : n = 0
      · rw [if_neg (fun h => h h0)]
        exact Rel.skip (leave_one hd) (.ok ⟨T.fr hx F hd.tail, rfl, rfl⟩)
      · rw [if_pos h0]
        obtain ⟨z5, e5, h5, f5⟩ := removeEmpty_spec (i := ⟨.uniq, w⟩) rfl h0 hbi hd
        exact Rel.skip e5 (Rel.skip (leave_one h5) (.ok ⟨T.fr hx (F.trans f5) h5.tail, rfl, rfl⟩))

theorem moveLast_rel {D : Nat} {g : GT α} (hl : g.levels.length = D) {z : St}
    {i : Item} {ys : List Item} (hi : i.perm = .uniq) (ho : Own D z (i :: ys)) (di : Nat) :
    Rel (fun a r => r.1 = a ∧ Own D r.2 (i :: ys)) (Typed.moveLast D g di) (moveLast D g (some i.tag) di z) := by
  subst hl
  unfold moveLast Typed.moveLast
  refine Rel.same fun last _ => ?_
  obtain ⟨z1, e1, o1, -, -⟩ := field_own (pm := .uniq) (fun _ => hi) ho (mem_last _)
  obtain ⟨z2, e2, o2, -, -⟩ := field_own (Perm.le_shared i) o1 (mem_last _)
  refine Rel.skip e1 (Rel.skip e2 ?_)
  refine Rel.ite (fun _ => ?_) fun _ => .ok ⟨rfl, o2⟩
  refine Rel.same fun rest _ => ?_
  obtain ⟨z3, e3, o3, -, -⟩ := field_own (pm := .uniq) (fun _ => hi) o2 (mem_last _)
  obtain ⟨u, z4, e4, T, -⟩ := tup_retag (pm := .uniq) o3 (fun _ => hi) o3 (List.Sublist.refl _)
  refine Rel.skip e3 (Rel.skip e4 ?_)
  refine Rel.bind (visitMut_rel
    (Q := fun (_ : Unit) (b : St) => Tup g.levels.length b ⟨.uniq, u⟩ (i :: ys) (i :: ys)) ?_)
    fun a b ⟨q1, q3, _⟩ => ?_
  · intro L eL
    refine Rel.same fun b eb => Rel.same fun ty _ => Rel.same fun b _ => Rel.same fun bl _ => ?_
    obtain ⟨w, z5, e5, h5, f5, -⟩ := retag_one (pm := .uniq) (Perm.le_self .uniq u) (T.heads _ (getP_lt eL))
    obtain ⟨p, z6, e6, h6, hb6, f6, -⟩ := blockRef_spec (L := L) (Perm.le_self .uniq w) (getU_lt eb) h5
    obtain ⟨z7, e7, h7, f7⟩ := writeBlock_spec rfl hb6
    have hd : Ch z7 (.head (g.levels.length - 1)) (⟨.uniq, w⟩ :: ⟨.uniq, u⟩ :: i :: ys) := by
      by_cases h0 : g.levels.length - 1 = 0
      · rw [h0] at h7 ⊢
        have h7' : Ch z7 (.head 0) _ := h7
        exact h7'.tail
      · exact ch_of_eq (f7 _ (head_ne_block h0)) h6
    refine Rel.skip e5 (Rel.skip e6 (Rel.skip e7 (Rel.skip (leave_one hd) (.ok ⟨?_, rfl⟩))))
    exact T.fr (List.Sublist.refl _) (((Fr.of f5 rfl).trans f6).trans (Fr.of f7 (At.block _ _ _))) hd.tail
  · obtain ⟨a1, a2⟩ := a
    obtain ⟨b1, b2⟩ := b
    simp only at q1 q3
    subst q3
    exact Rel.skip (leave_tup q1) (.ok ⟨rfl, q1.own⟩)

theorem selfMut_ok (g : GT α) (z : St) :
    ∃ n z', selfMut g z = .ok (some n, z') ∧ Own g.levels.length z' [⟨.uniq, n⟩] := by
  obtain ⟨n, z', e, h, -⟩ := own_none g.levels.length .uniq z
  exact ⟨n, z', e, h⟩

theorem remove_rel (N : Nat) {D : Nat} (g : GT α) (hl : g.levels.length = D) (z : St) (k : Nat) :
    Rel (fun a r => r.1 = a) (Typed.remove N D g k) (remove N D g k z) := by
  subst hl
  obtain ⟨n, z1, e1, o1⟩ := selfMut_ok g z
  unfold remove Typed.remove
  refine Rel.skip e1 (Rel.same fun index _ => Rel.same fun li _ => ?_)
  refine Rel.bind (fetch_rel o1 li) fun a r ⟨e, o2, _⟩ => ?_
  obtain ⟨r2, z2⟩ := r
  simp only at e o2
  subst e
  obtain ⟨lbi, di⟩ := r2
  simp only
  refine Rel.ite (fun _ => Rel.skip (leave_own o2) (.ok rfl)) fun _ => ?_
  obtain ⟨u, z3, e3, T, -⟩ := tup_retag (pm := .uniq) o2 (Perm.le_self .uniq n) o2 (List.Sublist.refl _)
  refine Rel.skip e3 ?_
  refine Rel.bind (foldMut_rel (P := fun (_ : Unit) (z : St) => Tup g.levels.length z ⟨.uniq, u⟩ [⟨.uniq, n⟩] [⟨.uniq, n⟩])
    (D := g.levels.length)
    (v := fun _ n L => Typed.removeVisit li lbi n L) (w := removeVisit li lbi (some u))
    (fun s t k L hk T => removeVisit_rel li lbi (c := ⟨.uniq, u⟩) rfl (List.Sublist.refl _) t k L hk T)
    (Typed.revArms g.levels.length) () z3 g.levels rfl T) fun a b ⟨T4, e4, hl4⟩ => ?_
  obtain ⟨a1, lv4⟩ := a
  obtain ⟨z4, lv5⟩ := b
  simp only at T4 e4 hl4
  subst e4
  simp only
  refine Rel.skip (leave_tup (hl4 ▸ T4)) ?_
  refine Rel.bind (moveLast_rel (g := { g with levels := lv5 }) hl4 (i := ⟨.uniq, n⟩) rfl T4.own di)
    fun a r ⟨e, o5⟩ => ?_
  obtain ⟨g5, z5⟩ := r
  simp only at e o5
  subst e
  simp only
  obtain ⟨z6, e6, o6, -, -⟩ := field_own (Perm.le_self .uniq n) o5 (mem_keys _)
  obtain ⟨z7, e7, o7, -, -⟩ := field_own (Perm.le_self .uniq n) o6 (mem_values _)
  refine Rel.skip e6 (Rel.same fun ks _ => Rel.skip e7 (Rel.same fun vs _ => Rel.same fun v _ => Rel.skip (leave_own o7) (.ok rfl)))

theorem getMut_rel (N D : Nat) (g : GT α) (z : St) (k : Nat) :
    Rel (fun a r => r.1 = a) (Typed.getMut N D g k) (getMut N D g k z) := by
  obtain ⟨n, z1, e1, o1⟩ := selfMut_ok g z
  unfold getMut Typed.getMut
  refine Rel.skip e1 (Rel.same fun index _ => Rel.same fun li _ => ?_)
  refine Rel.bind (fetchIndex_rel o1 li) fun a r ⟨e, o2, _⟩ => ?_
  obtain ⟨r2, z2⟩ := r
  simp only at e o2
  subst e
  simp only
  refine Rel.ite (fun _ => Rel.same fun v _ => Rel.same fun v _ => ?_) fun _ => Rel.skip (leave_own o2) (.ok rfl)
  obtain ⟨z3, e3, o3, -, -⟩ := field_own (Perm.le_self .uniq n) o2 (mem_values _)
  exact Rel.skip e3 (Rel.skip (leave_own o3) (.ok rfl))

theorem mutValues_rel (g : GT α) (f : Nat → α → α) (z : St) :
    Rel (fun a r => r.1 = a) (Typed.mutValues g f) (mutValues g f z) := by
  obtain ⟨n, z1, e1, o1⟩ := selfMut_ok g z
  obtain ⟨z2, e2, o2, -, -⟩ := field_own (Perm.le_shared ⟨.uniq, n⟩) o1 (mem_keys _)
  obtain ⟨z3, e3, o3, -, -⟩ := field_own (Perm.le_self .uniq n) o2 (mem_values _)
  unfold mutValues
  refine Rel.skip e1 (Rel.skip e2 (Rel.skip e3 (Rel.skip (leave_own o3) ?_)))
  cases Typed.mutValues g f with
  | error e => exact .err
  | ok g' => exact .ok rfl

end Hibit.SAlias
