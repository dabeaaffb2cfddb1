import Verif.SAlias.Model
import Verif.Typed.Tree
import Verif.Dense.NodeLemmas
/-!
# Accesses and borrows: what stays on the stacks
-/
namespace Hibit.SAlias
open Hibit Hibit.Sparse
open Hibit.Alias (Perm Item Acc Tag)
open Hibit.Typed (GLevel BPtr GT Rel)

/-- Does a borrow of this kind permit borrows of kind `pm`? -/
def Perm.le (pm : Perm) (i : Item) : Prop := pm = .uniq → i.perm = .uniq

theorem Perm.le_self (pm : Perm) (n : Nat) : Perm.le pm ⟨pm, n⟩ := fun h => h
theorem Perm.le_shared (i : Item) : Perm.le .shared i := fun h => by cases h

theorem grants_iff {i : Item} {pm : Perm} (h : Perm.le pm i) : i.grants pm.acc i.tag = true := by
  unfold Item.grants
  cases pm with
  | uniq => simp [h rfl]
  | shared => simp [Perm.acc]

theorem sublist_dropWhile {p : Item → Bool} {i : Item} {xs : List Item} (hi : p i = false) :
    ∀ {s : List Item}, (i :: xs).Sublist s → (i :: xs).Sublist (s.dropWhile p) ∧ s.dropWhile p ≠ []
  | [], h => by cases h
  | a :: s, h => by
    by_cases ha : p a = true
    · rw [List.dropWhile_cons_of_pos ha]
      cases h with
      | cons _ h => exact sublist_dropWhile hi h
      | cons_cons _ h => rw [hi] at ha; cases ha
    · rw [List.dropWhile_cons_of_neg ha]
      exact ⟨h, by simp⟩

theorem access_some (w : Acc) (t : Nat) (s : List Item) : access w (some t) s =
    match s.dropWhile (fun i => !i.grants w t) with
    | [] => .error .ub
    | rest =>
      if w = .write then .ok rest
      else .ok ((s.takeWhile (fun i => !i.grants w t)).filter (fun i => i.perm = .shared) ++ rest) := by
  cases w <;> rfl

/-- An access through a borrow on the stack succeeds and keeps it and what is below it. -/
theorem access_chain {i : Item} {xs s : List Item} {pm : Perm} (hp : Perm.le pm i) (h : (i :: xs).Sublist s) :
    ∃ s', access pm.acc (some i.tag) s = .ok s' ∧ (i :: xs).Sublist s' := by
  have hg : (!i.grants pm.acc i.tag) = false := by rw [grants_iff hp]; rfl
  obtain ⟨h1, h2⟩ := sublist_dropWhile (p := fun j : Item => !j.grants pm.acc i.tag) hg h
  rw [access_some]
  generalize hr : s.dropWhile (fun j : Item => !j.grants pm.acc i.tag) = rest at h1 h2
  cases rest with
  | nil => exact absurd rfl h2
  | cons a l =>
    simp only
    split
    · exact ⟨_, rfl, h1⟩
    · exact ⟨_, rfl, h1.trans (List.sublist_append_right _ _)⟩

/-- A read keeps every shared borrow. -/
theorem access_mono {t : Tag} {s s' : List Item} (e : access .read t s = .ok s') {i : Item} (hi : i.perm = .shared)
    (h : i ∈ s) : i ∈ s' := by
  unfold access at e
  cases t with
  | none =>
    simp only at e
    cases e
    exact List.mem_filter.2 ⟨h, by simpa using hi⟩
  | some t =>
    simp only at e
    have hs := List.takeWhile_append_dropWhile (p := fun j : Item => !j.grants .read t) (l := s)
    generalize hr : s.dropWhile (fun j : Item => !j.grants .read t) = rest at e hs
    cases rest with
    | nil => cases e
    | cons a l =>
      simp only at e
      rw [if_neg (by intro h; cases h)] at e
      cases e
      rw [← hs] at h
      rcases List.mem_append.1 h with h | h
      · exact List.mem_append_left _ (List.mem_filter.2 ⟨h, by simpa using hi⟩)
      · exact List.mem_append_right _ h

theorem access_none (pm : Perm) (s : List Item) : ∃ s', access pm.acc none s = .ok s' := by
  cases pm <;> exact ⟨_, rfl⟩

/-- Every shared borrow is kept. -/
def Mono (z z' : St) : Prop := ∀ pl (i : Item), i.perm = .shared → i ∈ z.stk pl → i ∈ z'.stk pl

theorem Mono.refl (z : St) : Mono z z := fun _ _ _ h => h
theorem Mono.trans {z z1 z2 : St} (h1 : Mono z z1) (h2 : Mono z1 z2) : Mono z z2 :=
  fun pl i hi h => h2 pl i hi (h1 pl i hi h)

/-- The chain `xs` of borrows, newest first, is on the stack of `pl`. -/
def Ch (z : St) (pl : Place) (xs : List Item) : Prop := xs.Sublist (z.stk pl)

theorem Ch.tail {z : St} {pl : Place} {i : Item} {xs : List Item} (h : Ch z pl (i :: xs)) : Ch z pl xs :=
  (List.sublist_cons_self i xs).trans h

/-- A protected borrow that is still there. -/
theorem leave_ok {i : Item} {ps : List Place} {z : St} (h : ∀ pl ∈ ps, i ∈ z.stk pl) : leave (some i.tag) ps z = .ok () := by
  unfold leave
  rw [if_pos]
  intro pl hpl
  exact List.any_eq_true.2 ⟨i, h pl hpl, by simp⟩

theorem Ch.mem {z : St} {pl : Place} {i : Item} {xs : List Item} (h : Ch z pl (i :: xs)) : i ∈ z.stk pl :=
  h.subset (by simp)

theorem leave_one {z : St} {pl : Place} {i : Item} {xs : List Item} (h : Ch z pl (i :: xs)) :
    leave (some i.tag) [pl] z = .ok () :=
  leave_ok (by intro q hq; rw [List.mem_singleton.1 hq]; exact h.mem)

theorem touch_spec {pl : Place} {pm : Perm} {i : Item} {xs : List Item} {z : St} (hp : Perm.le pm i)
    (h : Ch z pl (i :: xs)) :
    ∃ z', touch pl pm.acc (some i.tag) z = .ok z' ∧ Ch z' pl (i :: xs) ∧ (∀ q, q ≠ pl → z'.stk q = z.stk q) ∧
      (pm = .shared → Mono z z') := by
  obtain ⟨s, e, hs⟩ := access_chain hp h
  refine ⟨{ z with stk := Dense.upd z.stk pl s }, ?_, ?_, ?_, ?_⟩
  · unfold touch; rw [e]; rfl
  · show List.Sublist _ (Dense.upd z.stk pl s pl)
    rw [Dense.upd_same]; exact hs
  · intro q hq; exact Dense.upd_ne _ _ hq
  · intro hpm q j hj hm
    subst hpm
    show j ∈ Dense.upd z.stk pl s q
    by_cases hq : q = pl
    · subst hq
      rw [Dense.upd_same]
      exact access_mono e hj hm
    · rw [Dense.upd_ne _ _ hq]; exact hm

theorem borrow_spec {pm : Perm} {i : Item} {n : Nat} (hp : Perm.le pm i) (xs : Place → List Item) :
    ∀ (ps : List Place) (z : St), (∀ pl ∈ ps, Ch z pl (i :: xs pl)) →
    ∃ z', borrow pm (some i.tag) n ps z = .ok z' ∧ (∀ pl ∈ ps, Ch z' pl (⟨pm, n⟩ :: i :: xs pl)) ∧
      (∀ q, q ∉ ps → z'.stk q = z.stk q) ∧ (pm = .shared → Mono z z')
  | [], z, _ => ⟨z, rfl, fun _ h => by simp at h, fun _ _ => rfl, fun _ => .refl z⟩
  | pl :: ps, z, h => by
    obtain ⟨s, e, hs⟩ := access_chain hp (h pl (by simp))
    have hstep : ∀ q, Ch z q (i :: xs q) → q ∈ ps →
        Ch { z with stk := Dense.upd z.stk pl (⟨pm, n⟩ :: s) } q (i :: xs q) := by
      intro q hq _
      show List.Sublist _ (Dense.upd z.stk pl (⟨pm, n⟩ :: s) q)
      by_cases hqp : q = pl
      · subst hqp
        rw [Dense.upd_same]
        exact hs.trans (List.sublist_cons_self _ _)
      · rw [Dense.upd_ne _ _ hqp]; exact hq
    obtain ⟨z', e', h1, h2, h3⟩ := borrow_spec (n := n) hp xs ps
      { z with stk := Dense.upd z.stk pl (⟨pm, n⟩ :: s) }
      (fun q hq => hstep q (h q (List.mem_cons_of_mem _ hq)) hq)
    refine ⟨z', ?_, ?_, ?_, ?_⟩
    · unfold borrow; rw [e]; exact e'
    · intro q hq
      by_cases hm : q ∈ ps
      · exact h1 q hm
      · have : q = pl := (List.mem_cons.1 hq).resolve_right hm
        subst this
        show List.Sublist _ (z'.stk q)
        rw [h2 q hm]
        show List.Sublist _ (Dense.upd z.stk q (⟨pm, n⟩ :: s) q)
        rw [Dense.upd_same]
        exact hs.cons_cons _
    · intro q hq
      rw [h2 q (fun h => hq (List.mem_cons_of_mem _ h))]
      exact Dense.upd_ne _ _ (fun h => hq (by rw [h]; simp))
    · intro hpm
      refine Mono.trans ?_ (h3 hpm)
      intro q j hj hm
      subst hpm
      show j ∈ Dense.upd z.stk pl (⟨.shared, n⟩ :: s) q
      by_cases hq : q = pl
      · subst hq
        rw [Dense.upd_same]
        exact List.mem_cons_of_mem _ (access_mono e hj hm)
      · rw [Dense.upd_ne _ _ hq]; exact hm

/-- A reborrow of places that are borrowed by `i`. -/
theorem retag_spec {pm : Perm} {i : Item} (hp : Perm.le pm i) (xs : Place → List Item) (ps : List Place) {z : St}
    (h : ∀ pl ∈ ps, Ch z pl (i :: xs pl)) :
    ∃ n z', retag pm (some i.tag) ps z = .ok (some n, z') ∧ (∀ pl ∈ ps, Ch z' pl (⟨pm, n⟩ :: i :: xs pl)) ∧
      (∀ q, q ∉ ps → z'.stk q = z.stk q) ∧ (pm = .shared → Mono z z') := by
  obtain ⟨z', e, h1, h2, h3⟩ := borrow_spec (n := z.next) hp xs ps z h
  refine ⟨z.next, { z' with next := z.next + 1 }, ?_, h1, h2, h3⟩
  unfold retag; rw [e]; rfl

theorem borrow_none (pm : Perm) (n : Nat) : ∀ (ps : List Place) (z : St),
    ∃ z', borrow pm none n ps z = .ok z' ∧ (∀ pl ∈ ps, Ch z' pl [⟨pm, n⟩]) ∧
      (∀ q, q ∉ ps → z'.stk q = z.stk q) ∧ (pm = .shared → Mono z z')
  | [], z => ⟨z, rfl, fun _ h => by simp at h, fun _ _ => rfl, fun _ => .refl z⟩
  | pl :: ps, z => by
    obtain ⟨s, e⟩ := access_none pm (z.stk pl)
    obtain ⟨z', e', h1, h2, h3⟩ := borrow_none pm n ps { z with stk := Dense.upd z.stk pl (⟨pm, n⟩ :: s) }
    refine ⟨z', ?_, ?_, ?_, ?_⟩
    · unfold borrow; rw [e]; exact e'
    · intro q hq
      by_cases hm : q ∈ ps
      · exact h1 q hm
      · have : q = pl := (List.mem_cons.1 hq).resolve_right hm
        subst this
        show List.Sublist _ (z'.stk q)
        rw [h2 q hm]
        show List.Sublist _ (Dense.upd z.stk q (⟨pm, n⟩ :: s) q)
        rw [Dense.upd_same]
        exact (List.nil_sublist s).cons_cons _
    · intro q hq
      rw [h2 q (fun h => hq (List.mem_cons_of_mem _ h))]
      exact Dense.upd_ne _ _ (fun h => hq (by rw [h]; simp))
    · intro hpm
      refine Mono.trans ?_ (h3 hpm)
      intro q j hj hm
      subst hpm
      show j ∈ Dense.upd z.stk pl (⟨.shared, n⟩ :: s) q
      by_cases hq : q = pl
      · subst hq
        rw [Dense.upd_same]
        exact List.mem_cons_of_mem _ (access_mono e hj hm)
      · rw [Dense.upd_ne _ _ hq]; exact hm

/-- A borrow from the owner. -/
theorem retag_none (pm : Perm) (ps : List Place) (z : St) :
    ∃ n z', retag pm none ps z = .ok (some n, z') ∧ (∀ pl ∈ ps, Ch z' pl [⟨pm, n⟩]) ∧
      (∀ q, q ∉ ps → z'.stk q = z.stk q) ∧ (pm = .shared → Mono z z') := by
  obtain ⟨z', e, h1, h2, h3⟩ := borrow_none pm z.next ps z
  refine ⟨z.next, { z' with next := z.next + 1 }, ?_, h1, h2, h3⟩
  unfold retag; rw [e]; rfl

/-- A reborrow of one place. -/
theorem retag_one {pm : Perm} {i : Item} {xs : List Item} {pl : Place} {z : St} (hp : Perm.le pm i)
    (h : Ch z pl (i :: xs)) :
    ∃ n z', retag pm (some i.tag) [pl] z = .ok (some n, z') ∧ Ch z' pl (⟨pm, n⟩ :: i :: xs) ∧
      (∀ q, q ≠ pl → z'.stk q = z.stk q) ∧ (pm = .shared → Mono z z') := by
  obtain ⟨n, z', e, h1, h2, h3⟩ := retag_spec hp (fun _ => xs) [pl] (z := z) (by
    intro q hq; rw [List.mem_singleton.1 hq]; exact h)
  exact ⟨n, z', e, h1 pl (by simp), fun q hq => h2 q (by simpa using hq), h3⟩

/-- Reading a block through a borrow of it. -/
theorem readBlock_spec {i : Item} {xs : List Item} {pl : Place} {z : St} (h : Ch z pl (i :: xs)) :
    ∃ z', readBlock pl (some i.tag) z = .ok z' ∧ Ch z' pl (i :: xs) ∧ (∀ q, q ≠ pl → z'.stk q = z.stk q) ∧
      Mono z z' := by
  obtain ⟨n, z1, e1, h1, f1, m1⟩ := retag_one (Perm.le_shared i) h
  obtain ⟨z2, e2, h2, f2, m2⟩ := touch_spec (pm := .shared) (i := ⟨.shared, n⟩) (Perm.le_self _ _) h1
  refine ⟨z2, ?_, h2.tail, fun q hq => (f2 q hq).trans (f1 q hq), (m1 rfl).trans (m2 rfl)⟩
  unfold readBlock
  have e2' : touch pl .read (some n) z1 = .ok z2 := e2
  have e3 : leave (some n) [pl] z2 = .ok () := leave_one h2
  rw [e1]; simp only [bind_ok, e2', e3, pure_eq_ok]

/-- Writing a block through a unique borrow of it. -/
theorem writeBlock_spec {i : Item} {xs : List Item} {pl : Place} {z : St} (hi : i.perm = .uniq) (h : Ch z pl (i :: xs)) :
    ∃ z', writeBlock pl (some i.tag) z = .ok z' ∧ Ch z' pl (i :: xs) ∧ (∀ q, q ≠ pl → z'.stk q = z.stk q) := by
  obtain ⟨n, z1, e1, h1, f1, -⟩ := retag_one (pm := .uniq) (fun _ => hi) h
  obtain ⟨z2, e2, h2, f2, -⟩ := touch_spec (pm := .uniq) (i := ⟨.uniq, n⟩) (Perm.le_self _ _) h1
  refine ⟨z2, ?_, h2.tail, fun q hq => (f2 q hq).trans (f1 q hq)⟩
  unfold writeBlock
  have e2' : touch pl .write (some n) z1 = .ok z2 := e2
  have e3 : leave (some n) [pl] z2 = .ok () := leave_one h2
  rw [e1]; simp only [bind_ok, e2', e3, pure_eq_ok]

/-- Borrowing and accessing a field. -/
theorem field_spec {pm : Perm} {i : Item} {xs : List Item} {pl : Place} {z : St} (hp : Perm.le pm i)
    (h : Ch z pl (i :: xs)) :
    ∃ z', field pm pl (some i.tag) z = .ok z' ∧ Ch z' pl (i :: xs) ∧ (∀ q, q ≠ pl → z'.stk q = z.stk q) ∧
      (pm = .shared → Mono z z') := by
  obtain ⟨n, z1, e1, h1, f1, m1⟩ := retag_one hp h
  obtain ⟨z2, e2, h2, f2, m2⟩ := touch_spec (pm := pm) (i := ⟨pm, n⟩) (Perm.le_self _ _) h1
  refine ⟨z2, ?_, h2.tail, fun q hq => (f2 q hq).trans (f1 q hq), fun e => (m1 e).trans (m2 e)⟩
  unfold field
  have e2' : touch pl pm.acc (some n) z1 = .ok z2 := e2
  have e3 : leave (some n) [pl] z2 = .ok () := leave_one h2
  rw [e1]; simp only [bind_ok, e2', e3, pure_eq_ok]

/-- The places of level `n`. -/
def At (n : Nat) : Place → Prop
  | .head m => m = n
  | .blk m _ _ => m = n
  | _ => False

/-- Nothing outside level `n` changed. -/
def Fr (n : Nat) (z z' : St) : Prop := ∀ q, ¬ At n q → z'.stk q = z.stk q

theorem Fr.trans {n : Nat} {z z1 z2 : St} (h1 : Fr n z z1) (h2 : Fr n z1 z2) : Fr n z z2 :=
  fun q hq => (h2 q hq).trans (h1 q hq)
theorem Fr.of {n : Nat} {z z' : St} {pl : Place} (h : ∀ q, q ≠ pl → z'.stk q = z.stk q) (hpl : At n pl) : Fr n z z' :=
  fun q hq => h q (fun e => hq (e ▸ hpl))
theorem Fr.ch {n : Nat} {z z' : St} (h : Fr n z z') {pl : Place} (hpl : ¬ At n pl) {xs : List Item} (hc : Ch z pl xs) :
    Ch z' pl xs := by
  unfold Ch; rw [h pl hpl]; exact hc

theorem At.block (n g pos : Nat) : At n (blockPlace n g pos) := by
  unfold blockPlace
  split
  · exact (by assumption : n = 0).symm
  · rfl

theorem ch_of_eq {z z' : St} {pl : Place} {xs : List Item} (h : z'.stk pl = z.stk pl) (hc : Ch z pl xs) : Ch z' pl xs := by
  unfold Ch; rw [h]; exact hc

/-- What is below a reference to a block: for the root block, the chain of the tree. -/
def below (n : Nat) (xs : List Item) : List Item := if n = 0 then xs else []

/-- A reference to a block, the level being borrowed by `i`. -/
theorem blockRef_spec {pm : Perm} {i : Item} {xs : List Item} {n pos : Nat} {L : GLevel} {z : St} (hp : Perm.le pm i)
    (hpos : pos < L.level.blocks.length) (h : Ch z (.head n) (i :: xs)) :
    ∃ q z', blockRef pm n L pos (some i.tag) z = .ok (some q, z') ∧ Ch z' (.head n) (i :: xs) ∧
      Ch z' (blockPlace n L.gen pos) (⟨pm, q⟩ :: below n (i :: xs)) ∧ Fr n z z' ∧ (pm = .shared → Mono z z') := by
  obtain ⟨a, z1, e1, h1, f1, m1⟩ := retag_one hp h
  by_cases hn : n = 0
  · subst hn
    obtain ⟨b, z2, e2, h2, f2, m2⟩ := retag_one (i := ⟨pm, a⟩) (Perm.le_self pm a) h1
    obtain ⟨c, z3, e3, h3, f3, m3⟩ := retag_one (i := ⟨pm, b⟩) (Perm.le_self pm b) h2
    refine ⟨c, z3, ?_, h3.tail.tail.tail, ?_, ?_, fun e => ((m1 e).trans (m2 e)).trans (m3 e)⟩
    · unfold blockRef
      have e2' : retag pm (some a) [.head 0] z1 = .ok (some b, z2) := e2
      have e3' : retag pm (some b) [.head 0] z2 = .ok (some c, z3) := e3
      have l1 : leave (some b) [.head 0] z3 = .ok () := leave_one h3.tail
      have l2 : leave (some a) [.head 0] z3 = .ok () := leave_one h3.tail.tail
      rw [e1]; simp only [bind_ok, if_true, e2', e3', l1, l2, pure_eq_ok]
    · unfold blockPlace below
      rw [if_pos rfl, if_pos rfl]
      exact ((List.sublist_cons_self _ _).trans (List.sublist_cons_self _ _)).cons_cons _ |>.trans h3
    · exact ((Fr.of (n := 0) f1 rfl).trans (Fr.of (n := 0) f2 rfl)).trans (Fr.of (n := 0) f3 rfl)
  · obtain ⟨z2, e2, h2, f2, m2⟩ := touch_spec (pm := .shared) (i := ⟨pm, a⟩) (Perm.le_shared _) h1
    obtain ⟨b, z3, e3, h3, f3, m3⟩ := retag_none pm (buffer n L) z2
    have hb : Ch z3 (.blk n L.gen pos) [⟨pm, b⟩] :=
      h3 _ (List.mem_map.2 ⟨pos, List.mem_range.2 hpos, rfl⟩)
    obtain ⟨c, z4, e4, h4, f4, m4⟩ := retag_one (i := ⟨pm, b⟩) (Perm.le_self pm b) hb
    have hne : ∀ q ∈ buffer n L, ∃ p, q = .blk n L.gen p := by
      intro q hq
      obtain ⟨p, -, rfl⟩ := List.mem_map.1 hq
      exact ⟨p, rfl⟩
    have hf3 : Fr n z2 z3 := fun q hq => f3 q (fun h => by
      obtain ⟨p, rfl⟩ := hne q h
      exact hq rfl)
    have hhead : z4.stk (.head n) = z2.stk (.head n) := by
      rw [f4 _ (by intro h; cases h), f3]
      intro h
      obtain ⟨p, hq⟩ := hne _ h
      cases hq
    refine ⟨c, z4, ?_, ch_of_eq hhead h2.tail, ?_, ?_,
      fun e => (((m1 e).trans (m2 rfl)).trans (m3 e)).trans (m4 e)⟩
    · unfold blockRef
      have e2' : touch (.head n) .read (some a) z1 = .ok z2 := e2
      have e4' : retag pm (some b) [.blk n L.gen pos] z3 = .ok (some c, z4) := e4
      have l1 : leave (some b) (buffer n L) z4 = .ok () := leave_ok (i := ⟨pm, b⟩) (fun q hq => by
        by_cases e : q = .blk n L.gen pos
        · subst e; exact h4.tail.mem
        · rw [f4 q e]; exact (h3 q hq).mem)
      have l2 : leave (some a) [.head n] z4 = .ok () := leave_one (ch_of_eq hhead h2)
      rw [e1]; simp only [bind_ok, if_neg hn, e2', e3, e4', l1, l2, pure_eq_ok]
    · unfold blockPlace below
      rw [if_neg hn, if_neg hn]
      exact (List.nil_sublist _).cons_cons _ |>.trans h4
    · exact (((Fr.of (n := n) f1 rfl).trans (Fr.of (n := n) f2 rfl)).trans hf3).trans (Fr.of (n := n) f4 rfl)

end Hibit.SAlias
