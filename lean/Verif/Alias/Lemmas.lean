import Verif.Alias.Model
/-!
# Accesses that succeed
-/
namespace Hibit.Alias
open Hibit Hibit.Dense

/-- An access of this kind to `pl` through `t` is allowed. -/
def Can (z : St) (pl : Place) (w : Acc) : Tag → Prop
  | none => w = .read ∨ baseWrites pl = true
  | some t => ∃ i ∈ z.stk pl, i.grants w t = true

/-- Between `z` and `z'` only the borrows of places in `S` have changed, and whatever was allowed through `t` still is. -/
structure Eff (S : Place → Prop) (t : Tag) (z z' : St) : Prop where
  heap : z'.heap = z.heap
  root : z'.root = z.root
  frame : ∀ pl, ¬ S pl → z'.stk pl = z.stk pl
  keep : ∀ w pl, Can z pl w t → Can z' pl w t

theorem Eff.refl (S : Place → Prop) (t : Tag) (z : St) : Eff S t z z := ⟨rfl, rfl, fun _ _ => rfl, fun _ _ h => h⟩

theorem Eff.trans {S : Place → Prop} {t : Tag} {z z1 z2 : St} (h : Eff S t z z1) (h' : Eff S t z1 z2) : Eff S t z z2 :=
  ⟨h'.heap.trans h.heap, h'.root.trans h.root, fun pl hp => (h'.frame pl hp).trans (h.frame pl hp),
    fun w pl hc => h'.keep w pl (h.keep w pl hc)⟩

theorem Eff.mono {S S' : Place → Prop} {t : Tag} {z z1 : St} (h : Eff S t z z1) (hs : ∀ pl, S pl → S' pl) : Eff S' t z z1 :=
  ⟨h.heap, h.root, fun pl hp => h.frame pl fun hq => hp (hs pl hq), h.keep⟩

/-- Nothing is lost for the bottom pointer. -/
theorem Eff.base {S : Place → Prop} {t : Tag} {z z1 : St} (h : Eff S t z z1) : Eff S none z z1 :=
  ⟨h.heap, h.root, h.frame, fun _ _ hc => hc⟩

/-- Effects elsewhere keep what is allowed here. -/
theorem Can.frame {S : Place → Prop} {t t' : Tag} {z z' : St} (h : Eff S t z z') {pl : Place} (hp : ¬ S pl) {w : Acc}
    (hc : Can z pl w t') : Can z' pl w t' := by
  cases t' with
  | none => exact hc
  | some t' => unfold Can at hc ⊢; rw [h.frame pl hp]; exact hc

theorem can_base_heap (z : St) (a : Nat) (l : Loc) (w : Acc) : Can z (.node (.heap a) l) w none := Or.inr rfl

theorem can_base_root (z : St) (w : Acc) : Can z .root w none := Or.inr rfl

theorem can_base_read (z : St) (pl : Place) : Can z pl .read none := Or.inl rfl

theorem grants_read {i : Item} {w : Acc} {t : Nat} (h : i.grants w t = true) : i.grants .read t = true := by
  unfold Item.grants at h ⊢
  simp only [Bool.and_eq_true, decide_eq_true_eq, Bool.or_eq_true] at h
  simp [h.1]

theorem Can.read {z : St} {pl : Place} {w : Acc} {t : Tag} (h : Can z pl w t) : Can z pl .read t := by
  cases t with
  | none => exact Or.inl rfl
  | some t =>
    obtain ⟨i, hi, hg⟩ := h
    exact ⟨i, hi, grants_read hg⟩

/-- What an access leaves on the stack. -/
theorem access_ok {z : St} {pl : Place} {w : Acc} {t : Tag} (h : Can z pl w t) :
    ∃ s, access pl w t (z.stk pl) = .ok s ∧
      ∀ t0, t = some t0 → ∀ w', (∃ i ∈ z.stk pl, i.grants w' t0 = true) → ∃ i ∈ s, i.grants w' t0 = true := by
  cases t with
  | none =>
    cases w with
    | read => exact ⟨_, rfl, fun _ e => (nomatch e)⟩
    | write =>
      have hb : baseWrites pl = true := by
        rcases h with h | h
        · cases h
        · exact h
      refine ⟨[], ?_, fun _ e => (nomatch e)⟩
      simp [access, hb]
  | some t =>
    obtain ⟨i, hi, hg⟩ := h
    have hsplit := List.takeWhile_append_dropWhile (p := fun i : Item => !i.grants w t) (l := z.stk pl)
    have hin : ∀ j ∈ z.stk pl, j.grants w t = true → j ∈ (z.stk pl).dropWhile (fun i => !i.grants w t) := by
      intro j hj hgj
      rw [← hsplit] at hj
      rcases List.mem_append.1 hj with hj | hj
      · have := List.all_takeWhile (p := fun i : Item => !i.grants w t) (l := z.stk pl)
        rw [List.all_eq_true] at this
        have := this j hj
        simp [hgj] at this
      · exact hj
    have hne : (z.stk pl).dropWhile (fun i => !i.grants w t) ≠ [] := List.ne_nil_of_mem (hin i hi hg)
    unfold access
    cases hd : (z.stk pl).dropWhile (fun i => !i.grants w t) with
    | nil => exact absurd hd hne
    | cons x rest =>
      rw [hd] at hin
      cases w with
      | write =>
        refine ⟨x :: rest, by simp [hd], ?_⟩
        intro t0 e w' _
        cases e
        refine ⟨i, hin i hi hg, ?_⟩
        cases w' with
        | read => exact grants_read hg
        | write => exact hg
      | read =>
        refine ⟨_, by simp only [hd]; rfl, ?_⟩
        intro t0 e w' ⟨j, hj, hgj⟩
        cases e
        exact ⟨j, List.mem_append_right _ (hin j hj (grants_read hgj)), hgj⟩

theorem touch_ok {z : St} {pl : Place} {w : Acc} {t : Tag} (h : Can z pl w t) :
    ∃ z', touch pl w t z = .ok z' ∧ Eff (· = pl) t z z' := by
  obtain ⟨s, e, hk⟩ := access_ok h
  refine ⟨{ z with stk := upd z.stk pl s }, by simp only [touch, e, bind_ok, pure_eq_ok], rfl, rfl, ?_, ?_⟩
  · intro q hq
    exact upd_ne _ _ hq
  · intro w' q hc
    cases t with
    | none => exact hc
    | some t =>
      unfold Can at hc ⊢
      by_cases e : q = pl
      · subst e
        simp only [upd_same]
        exact hk t rfl w' hc
      · simp only [upd_ne _ _ e]
        exact hc

/-- An access through the topmost borrow changes nothing. -/
theorem touch_top {z : St} {pl : Place} {w : Acc} {t : Nat} {i : Item} {s : List Item} (hs : z.stk pl = i :: s)
    (hg : i.grants w t = true) : touch pl w (some t) z = .ok z := by
  have e : access pl w (some t) (z.stk pl) = .ok (z.stk pl) := by
    unfold access
    rw [hs]
    simp only [List.dropWhile_cons, hg, Bool.not_true, Bool.false_eq_true, if_false, List.takeWhile_cons, List.filter_nil,
      List.nil_append]
    by_cases hw : w = .write
    · rw [if_pos hw]
    · rw [if_neg hw]
  unfold touch
  rw [e]
  simp only [bind_ok, pure_eq_ok]
  congr 1
  obtain ⟨h, r, k, n⟩ := z
  simp only [St.mk.injEq, true_and, and_true]
  funext q
  unfold upd
  split
  · next e => rw [e]
  · rfl

theorem borrow_ok {pm : Perm} {t : Tag} {n : Nat} : ∀ (ps : List Place) (z : St), (∀ pl ∈ ps, Can z pl pm.acc t) →
    ∃ z', borrow pm t n ps z = .ok z' ∧ Eff (· ∈ ps) t z z' ∧ (∀ pl ∈ ps, ∃ s, z'.stk pl = ⟨pm, n⟩ :: s) ∧
      z'.next = z.next
  | [], z, _ => ⟨z, rfl, Eff.refl _ _ _, (fun _ h => (nomatch h)), rfl⟩
  | pl :: ps, z, h => by
    obtain ⟨s, e, hk⟩ := access_ok (h pl (by simp))
    have e1 : Eff (· = pl) t z { z with stk := upd z.stk pl (⟨pm, n⟩ :: s) } := by
      refine ⟨rfl, rfl, fun q hq => upd_ne _ _ hq, ?_⟩
      intro w' q hc
      cases t with
      | none => exact hc
      | some t =>
        unfold Can at hc ⊢
        by_cases eq : q = pl
        · subst eq
          simp only [upd_same]
          obtain ⟨i, hi, hg⟩ := hk t rfl w' hc
          exact ⟨i, List.mem_cons_of_mem _ hi, hg⟩
        · simp only [upd_ne _ _ eq]
          exact hc
    obtain ⟨z', e2, e3, e4, e5⟩ := borrow_ok ps _ fun q hq => e1.keep _ _ (h q (List.mem_cons_of_mem _ hq))
    refine ⟨z', ?_, (e1.mono fun q hq => by rw [hq]; simp).trans (e3.mono fun q hq => List.mem_cons_of_mem _ hq), ?_, e5⟩
    · unfold borrow
      rw [e, bind_ok]
      exact e2
    · intro q hq
      by_cases hm : q ∈ ps
      · exact e4 q hm
      · have : q = pl := by
          rcases List.mem_cons.1 hq with h | h
          · exact h
          · exact absurd h hm
        rw [e3.frame q hm, this]
        exact ⟨s, by simp⟩

theorem retag_ok {pm : Perm} {t : Tag} {ps : List Place} {z : St} (h : ∀ pl ∈ ps, Can z pl pm.acc t) :
    ∃ z', retag pm t ps z = .ok (some z.next, z') ∧ Eff (· ∈ ps) t z z' ∧ ∀ pl ∈ ps, ∃ s, z'.stk pl = ⟨pm, z.next⟩ :: s := by
  obtain ⟨z', e, e1, e2, -⟩ := borrow_ok (n := z.next) ps z h
  exact ⟨{ z' with next := z.next + 1 }, by simp only [retag, e, bind_ok, pure_eq_ok], ⟨e1.heap, e1.root, e1.frame, fun w pl hc => by
    have := e1.keep w pl hc
    cases t <;> exact this⟩, e2⟩

/-- A protected borrow that is still there. -/
theorem leave_ok {pm : Perm} {t : Nat} {ps : List Place} {z : St} (h : ∀ pl ∈ ps, (⟨pm, t⟩ : Item) ∈ z.stk pl) :
    leave (some t) ps z = .ok () := by
  unfold leave
  rw [if_pos]
  intro pl hpl
  exact List.any_eq_true.2 ⟨⟨pm, t⟩, h pl hpl, by simp⟩

theorem leave_top {pm : Perm} {t : Nat} {ps : List Place} {z : St} (h : ∀ pl ∈ ps, ∃ s, z.stk pl = ⟨pm, t⟩ :: s) :
    leave (some t) ps z = .ok () := leave_ok (pm := pm) fun pl hpl => by
  obtain ⟨s, hs⟩ := h pl hpl
  rw [hs]; simp

/-- A read through the bottom pointer or a shared reference keeps every shared borrow. -/
theorem access_mono {pl : Place} {t : Tag} {s s' : List Item} (e : access pl .read t s = .ok s') {i : Item} (hi : i.perm = .shared)
    (h : i ∈ s) : i ∈ s' := by
  unfold access at e
  cases t with
  | none =>
    simp only at e
    cases e
    exact List.mem_filter.2 ⟨h, by simpa using hi⟩
  | some t =>
    simp only at e
    have hs := List.takeWhile_append_dropWhile (p := fun j : Item => !j.grants .read t) (l := s)
    generalize hr : s.dropWhile (fun j : Item => !j.grants .read t) = rest at e hs
    cases rest with
    | nil => cases e
    | cons a l =>
      simp only at e
      rw [if_neg (by intro h; cases h)] at e
      cases e
      rw [← hs] at h
      rcases List.mem_append.1 h with h | h
      · exact List.mem_append_left _ (List.mem_filter.2 ⟨h, by simpa using hi⟩)
      · exact List.mem_append_right _ h

theorem borrow_mono {t : Tag} {n : Nat} : ∀ (ps : List Place) {z z' : St}, borrow .shared t n ps z = .ok z' → ∀ {i : Item},
    i.perm = .shared → ∀ {pl : Place}, i ∈ z.stk pl → i ∈ z'.stk pl
  | [], z, z', e, _, _, _, h => by cases e; exact h
  | q :: ps, z, z', e, i, hi, pl, h => by
    unfold borrow at e
    obtain ⟨s, es, e⟩ := bind_inv e
    refine borrow_mono ps e hi ?_
    show i ∈ upd z.stk q (⟨.shared, n⟩ :: s) pl
    by_cases hq : pl = q
    · subst hq
      rw [upd_same]
      exact List.mem_cons_of_mem _ (access_mono es hi h)
    · rw [upd_ne _ _ hq]; exact h

theorem retag_mono {t u : Tag} {ps : List Place} {z z' : St} (e : retag .shared t ps z = .ok (u, z')) {i : Item}
    (hi : i.perm = .shared) {pl : Place} (h : i ∈ z.stk pl) : i ∈ z'.stk pl := by
  unfold retag at e
  obtain ⟨z1, e1, e⟩ := bind_inv e
  cases e
  exact borrow_mono ps e1 hi h

theorem touchAll_ok {a : Nat} {w : Acc} : ∀ (ps : List Place) (z : St), (∀ pl ∈ ps, ∃ l, pl = .node (.heap a) l) →
    ∃ z', touchAll w ps z = .ok z' ∧ Eff (· ∈ ps) none z z'
  | [], z, _ => ⟨z, rfl, Eff.refl _ _ _⟩
  | pl :: ps, z, h => by
    obtain ⟨l, rfl⟩ := h pl (by simp)
    obtain ⟨z1, e1, f1⟩ := touch_ok (can_base_heap z a l w)
    obtain ⟨z2, e2, f2⟩ := touchAll_ok ps z1 fun q hq => h q (List.mem_cons_of_mem _ hq)
    refine ⟨z2, ?_, (f1.mono fun q hq => by rw [hq]; simp).trans (f2.mono fun q hq => List.mem_cons_of_mem _ hq)⟩
    unfold touchAll
    rw [e1, bind_ok]
    exact e2

/-! ## Reads of a header -/

/-- The places of a header are parts of the node. -/
theorem hdr_node {p : Ptr} {pl : Place} (h : pl ∈ hdr p) : ∃ l, pl = .node p l := by
  simp only [hdr, List.mem_cons, List.not_mem_nil, or_false] at h
  rcases h with h | h | h <;> exact ⟨_, h⟩

theorem mask_hdr (p : Ptr) : Place.node p .mask ∈ hdr p := by simp [hdr]
theorem cap_hdr (p : Ptr) : Place.node p .cap ∈ hdr p := by simp [hdr]
theorem len_hdr (p : Ptr) : Place.node p .len ∈ hdr p := by simp [hdr]

theorem grants_self (pm : Perm) (n : Nat) : Item.grants ⟨pm, n⟩ .read n = true := by simp [Item.grants]

theorem header_ok (p : Ptr) (z : St) : ∃ z', header p z = .ok (some z.next, z') ∧ Eff (· ∈ hdr p) none z z' ∧
    ∀ pl ∈ hdr p, ∃ s, z'.stk pl = ⟨.shared, z.next⟩ :: s :=
  retag_ok fun _ _ => Or.inl rfl

theorem readMask_top {p : Ptr} {z : St} {t : Nat} {pm : Perm} {s : List Item} {n : Node}
    (hs : z.stk (.node p .mask) = ⟨pm, t⟩ :: s) (hn : deref z.heap p = .ok n) : readMask p (some t) z = .ok (n.mask, z) := by
  unfold readMask
  rw [touch_top hs (grants_self pm t), bind_ok, hn, bind_ok]
  rfl

theorem readCap_top {p : Ptr} {z : St} {t : Nat} {pm : Perm} {s : List Item} {n : Node}
    (hs : z.stk (.node p .cap) = ⟨pm, t⟩ :: s) (hn : deref z.heap p = .ok n) : readCap p (some t) z = .ok (n.cap, z) := by
  unfold readCap
  rw [touch_top hs (grants_self pm t), bind_ok, hn, bind_ok]
  rfl

theorem readLen_top {p : Ptr} {z : St} {t : Nat} {pm : Perm} {s : List Item} {n : Node}
    (hs : z.stk (.node p .len) = ⟨pm, t⟩ :: s) (hn : deref z.heap p = .ok n) : readLen p (some t) z = .ok (n.len, z) := by
  unfold readLen
  rw [touch_top hs (grants_self pm t), bind_ok, hn, bind_ok]
  rfl

theorem readLen_ok {p : Ptr} {z : St} {t : Tag} {n : Node} (hc : Can z (.node p .len) .read t) (hn : deref z.heap p = .ok n) :
    ∃ z', readLen p t z = .ok (n.len, z') ∧ Eff (· ∈ hdr p) t z z' := by
  obtain ⟨z', e, f⟩ := touch_ok hc
  refine ⟨z', ?_, f.mono fun q hq => by rw [hq]; exact len_hdr p⟩
  unfold readLen
  rw [e, bind_ok, f.heap, hn, bind_ok]
  rfl

/-- `contains` and `get_dense_index`, through a reference to the header. -/
theorem contains_ok {p : Ptr} {z : St} {t : Tag} {n : Node} {index : Nat} {c : Bool} (hn : deref z.heap p = .ok n)
    (hc : ∀ pl ∈ hdr p, Can z pl .read t) (e : n.contains index = .ok c) :
    ∃ z', contains p t index z = .ok (c, z') ∧ Eff (· ∈ hdr p) t z z' := by
  obtain ⟨z1, e1, f1, s1⟩ := retag_ok (pm := .shared) hc
  obtain ⟨s, hs⟩ := s1 _ (mask_hdr p)
  refine ⟨z1, ?_, f1⟩
  unfold contains
  rw [e1, bind_ok]
  simp only
  rw [readMask_top hs (by rw [f1.heap]; exact hn), bind_ok]
  simp only
  unfold Node.contains at e
  rw [e, bind_ok, leave_top s1]
  rfl

theorem denseIdx_ok {p : Ptr} {z : St} {t : Tag} {n : Node} {index d : Nat} (hn : deref z.heap p = .ok n)
    (hc : ∀ pl ∈ hdr p, Can z pl .read t) (e : denseIndex n.mask index = .ok d) :
    ∃ z', denseIdx p t index z = .ok (d, z') ∧ Eff (· ∈ hdr p) t z z' := by
  obtain ⟨z1, e1, f1, s1⟩ := retag_ok (pm := .shared) hc
  obtain ⟨s, hs⟩ := s1 _ (mask_hdr p)
  refine ⟨z1, ?_, f1⟩
  unfold denseIdx
  rw [e1, bind_ok]
  simp only
  rw [readMask_top hs (by rw [f1.heap]; exact hn), bind_ok]
  simp only
  rw [e, bind_ok, leave_top s1]
  rfl

theorem can_top {z : St} {pl : Place} {pm : Perm} {t : Nat} {s : List Item} (hs : z.stk pl = ⟨pm, t⟩ :: s) {w : Acc}
    (hw : w = .read ∨ pm = .uniq) : Can z pl w (some t) := by
  refine ⟨⟨pm, t⟩, by rw [hs]; simp, ?_⟩
  unfold Item.grants
  simp only [Bool.and_eq_true, decide_eq_true_eq, Bool.or_eq_true, true_and]
  exact hw

/-- Only the header of `p` has been touched. -/
abbrev AtHdr (p : Ptr) (z z' : St) : Prop := Eff (· ∈ hdr p) none z z'

/-- Only the node `p` has been touched. -/
def AtNode (p : Ptr) (pl : Place) : Prop := ∃ l, pl = .node p l

theorem headerContains_ok {p : Ptr} {z : St} {n : Node} {index : Nat} {c : Bool} (hn : deref z.heap p = .ok n)
    (e : n.contains index = .ok c) : ∃ z', headerContains p index z = .ok (c, z') ∧ Eff (AtNode p) none z z' := by
  obtain ⟨z1, e1, f1, s1⟩ := header_ok p z
  obtain ⟨z2, e2, f2⟩ := contains_ok (t := some z.next) (by rw [f1.heap]; exact hn) (fun pl hp => by
    obtain ⟨s, hs⟩ := s1 pl hp
    exact can_top hs (Or.inl rfl)) e
  refine ⟨z2, ?_, (f1.trans f2.base).mono fun q hq => hdr_node hq⟩
  unfold headerContains
  rw [e1, bind_ok]
  exact e2

theorem maskOf_ok {p : Ptr} {z : St} {n : Node} (hn : deref z.heap p = .ok n) :
    ∃ z', maskOf p z = .ok (n.mask, z') ∧ Eff (AtNode p) none z z' := by
  obtain ⟨z1, e1, f1, s1⟩ := header_ok p z
  obtain ⟨z2, e2, f2, s2⟩ := retag_ok (pm := .shared) (t := some z.next) (ps := hdr p) (z := z1) (fun pl hp => by
    obtain ⟨s, hs⟩ := s1 pl hp
    exact can_top hs (Or.inl rfl))
  obtain ⟨z3, e3, f3, s3⟩ := retag_ok (pm := .shared) (t := some z1.next) (ps := [.node p .mask]) (z := z2) (fun pl hp => by
    obtain ⟨s, hs⟩ := s2 pl (by rw [List.mem_singleton.1 hp]; exact mask_hdr p)
    exact can_top hs (Or.inl rfl))
  obtain ⟨s, hs⟩ := s3 _ (List.mem_singleton.2 rfl)
  refine ⟨z3, ?_, ((f1.trans f2.base).trans (f3.base.mono fun q hq => ?_)).mono fun q hq => hdr_node hq⟩
  · unfold maskOf
    rw [e1, bind_ok]
    simp only
    rw [e2, bind_ok]
    simp only
    rw [e3, bind_ok]
    simp only
    rw [leave_ok (pm := .shared) (t := z1.next) (ps := hdr p) (z := z3) (fun pl hpl => by
      obtain ⟨s, hs⟩ := s2 pl hpl
      exact retag_mono e3 rfl (by rw [hs]; simp)), bind_ok]
    exact readMask_top hs (by rw [f3.heap, f2.heap, f1.heap]; exact hn)
  · rw [List.mem_singleton.1 hq]; exact mask_hdr p

theorem lenOf_ok {p : Ptr} {z : St} {n : Node} (hn : deref z.heap p = .ok n) :
    ∃ z', lenOf p z = .ok (n.len, z') ∧ Eff (AtNode p) none z z' := by
  obtain ⟨z1, e1, f1, s1⟩ := header_ok p z
  obtain ⟨z2, e2, f2, s2⟩ := retag_ok (pm := .shared) (t := some z.next) (ps := hdr p) (z := z1) (fun pl hp => by
    obtain ⟨s, hs⟩ := s1 pl hp
    exact can_top hs (Or.inl rfl))
  obtain ⟨s, hs⟩ := s2 _ (len_hdr p)
  refine ⟨z2, ?_, (f1.trans f2.base).mono fun q hq => hdr_node hq⟩
  unfold lenOf
  rw [e1, bind_ok]
  simp only
  rw [e2, bind_ok]
  simp only
  rw [readLen_top hs (by rw [f2.heap, f1.heap]; exact hn), bind_ok]
  simp only
  rw [leave_top s2]
  rfl

theorem readCell_ok {p : Ptr} {d : Nat} {z : St} {t : Tag} {n : Node} {c : Cell} (hc : Can z (.node p (.cell d)) .read t)
    (hn : deref z.heap p = .ok n) (e : getU n.cells d = .ok c) :
    ∃ z', readCell p d t z = .ok (c, z') ∧ Eff (· = .node p (.cell d)) t z z' := by
  obtain ⟨z', e', f⟩ := touch_ok hc
  refine ⟨z', ?_, f⟩
  unfold readCell
  rw [e', bind_ok, f.heap, hn, bind_ok, e, bind_ok]
  rfl

theorem getChild_ok {p : Ptr} {z : St} {index : Nat} {c : Cell} (e : Dense.getChild z.heap p index = .ok c) :
    ∃ z', getChild p index z = .ok (c, z') ∧ Eff (AtNode p) none z z' := by
  unfold Dense.getChild at e
  obtain ⟨n, hn, e⟩ := bind_inv e
  obtain ⟨d, hd, e⟩ := bind_inv e
  obtain ⟨z1, e1, f1, s1⟩ := header_ok p z
  obtain ⟨z2, e2, f2⟩ := denseIdx_ok (t := some z.next) (by rw [f1.heap]; exact hn) (fun pl hp => by
    obtain ⟨s, hs⟩ := s1 pl hp
    exact can_top hs (Or.inl rfl)) hd
  obtain ⟨z3, e3, f3, s3⟩ := retag_ok (pm := .shared) (t := none) (ps := [.node p (.cell d)]) (z := z2) (fun _ _ => Or.inl rfl)
  obtain ⟨s, hs⟩ := s3 _ (List.mem_singleton.2 rfl)
  obtain ⟨z4, e4, f4⟩ := readCell_ok (can_top hs (Or.inl rfl)) (n := n) (by rw [f3.heap, f2.heap, f1.heap]; exact hn) e
  refine ⟨z4, ?_, (((f1.trans f2.base).mono fun q hq => hdr_node hq).trans (f3.mono fun q hq =>
    ⟨_, List.mem_singleton.1 hq⟩)).trans (f4.base.mono fun q hq => ⟨_, hq⟩)⟩
  unfold getChild
  rw [e1, bind_ok]
  simp only
  rw [e2, bind_ok]
  simp only
  rw [e3, bind_ok]
  exact e4

theorem deref_heap {h : Heap} {a : Nat} {n : Node} (hn : h.node a = some n) : deref h (.heap a) = .ok n := by
  simp only [deref, hn, unwrapU]

theorem derefMut_heap {h : Heap} {a : Nat} {n : Node} (hn : h.node a = some n) : derefMut h (.heap a) = .ok (a, n) := by
  simp only [derefMut, hn, unwrapU, bind_ok, pure_eq_ok]

theorem derefMut_inv {h : Heap} {p : Ptr} {r : Nat × Node} (e : derefMut h p = .ok r) :
    p = .heap r.1 ∧ h.node r.1 = some r.2 := by
  cases p with
  | stat i => cases e
  | heap a =>
    simp only [derefMut] at e
    obtain ⟨n, hn, e⟩ := bind_inv e
    cases e
    exact ⟨rfl, unwrapU_inv hn⟩

/-- `get_child_mut`: the new reference may be written through. -/
theorem getChildMut_ok {a : Nat} {z : St} {index d : Nat} {n : Node} (hn : z.heap.node a = some n)
    (hd : denseIndex n.mask index = .ok d) : ∃ z' t, getChildMut (.heap a) index z = .ok (d, t, z') ∧
      Eff (AtNode (.heap a)) none z z' ∧ Can z' (.node (.heap a) (.cell d)) .write t := by
  have hde := deref_heap hn
  have hdm := derefMut_heap hn
  obtain ⟨z1, e1, f1, s1⟩ := header_ok (.heap a) z
  obtain ⟨z2, e2, f2⟩ := denseIdx_ok (t := some z.next) (by rw [f1.heap]; exact hde) (fun pl hp => by
    obtain ⟨s, hs⟩ := s1 pl hp
    exact can_top hs (Or.inl rfl)) hd
  obtain ⟨z3, e3, f3, s3⟩ := retag_ok (pm := .uniq) (t := none) (ps := [.node (.heap a) (.cell d)]) (z := z2)
    (fun pl hp => by rw [List.mem_singleton.1 hp]; exact Or.inr rfl)
  obtain ⟨s, hs⟩ := s3 _ (List.mem_singleton.2 rfl)
  refine ⟨z3, some z2.next, ?_, ((f1.trans f2.base).mono fun q hq => hdr_node hq).trans (f3.mono fun q hq =>
    ⟨_, List.mem_singleton.1 hq⟩), can_top hs (Or.inr rfl)⟩
  unfold getChildMut
  rw [hdm, bind_ok]
  simp only
  rw [e1, bind_ok]
  simp only
  rw [e2, bind_ok]
  simp only
  rw [e3, bind_ok]
  rfl

end Hibit.Alias
