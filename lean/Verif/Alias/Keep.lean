import Verif.Alias.Read
/-!
# Readers leave each other's references alone

A read through any pointer removes no shared borrow from any stack.
-/
namespace Hibit.Alias
open Hibit Hibit.Dense

/-- Every shared borrow on a stack of `z` is still there in `z'`. -/
def Kept (z z' : St) : Prop := ∀ pl i, i ∈ z.stk pl → i.perm = .shared → i ∈ z'.stk pl

theorem Kept.refl (z : St) : Kept z z := fun _ _ h _ => h

theorem Kept.trans {z z1 z2 : St} (h : Kept z z1) (h' : Kept z1 z2) : Kept z z2 :=
  fun pl i hi hs => h' pl i (h pl i hi hs) hs

theorem access_keep {pl : Place} {t : Tag} {s s' : List Item} (e : access pl .read t s = .ok s') {i : Item} (hi : i ∈ s)
    (hp : i.perm = .shared) : i ∈ s' := by
  cases t with
  | none =>
    cases e
    exact List.mem_filter.2 ⟨hi, by simp [hp]⟩
  | some t =>
    unfold access at e
    have hsplit := List.takeWhile_append_dropWhile (p := fun i : Item => !i.grants .read t) (l := s)
    cases hd : s.dropWhile (fun i => !i.grants .read t) with
    | nil => simp [hd] at e
    | cons x rest =>
      simp only [hd] at e
      cases e
      rw [← hsplit, hd] at hi
      rcases List.mem_append.1 hi with h | h
      · exact List.mem_append_left _ (List.mem_filter.2 ⟨h, by simp [hp]⟩)
      · exact List.mem_append_right _ h

theorem touch_keep {pl : Place} {t : Tag} {z z' : St} (e : touch pl .read t z = .ok z') : Kept z z' := by
  unfold touch at e
  obtain ⟨s, hs, e⟩ := bind_inv e
  cases e
  intro q i hi hp
  by_cases h : q = pl
  · subst h
    simp only [upd_same]
    exact access_keep hs hi hp
  · simp only [upd_ne _ _ h]
    exact hi

theorem borrow_keep {t : Tag} {n : Nat} : ∀ (ps : List Place) {z z' : St}, borrow .shared t n ps z = .ok z' → Kept z z'
  | [], z, z', e => by cases e; exact Kept.refl z
  | pl :: ps, z, z', e => by
    unfold borrow at e
    obtain ⟨s, hs, e⟩ := bind_inv e
    refine Kept.trans ?_ (borrow_keep ps e)
    intro q i hi hp
    by_cases h : q = pl
    · subst h
      simp only [upd_same]
      exact List.mem_cons_of_mem _ (access_keep hs hi hp)
    · simp only [upd_ne _ _ h]
      exact hi

theorem retag_keep {t u : Tag} {ps : List Place} {z z' : St} (e : retag .shared t ps z = .ok (u, z')) : Kept z z' := by
  unfold retag at e
  obtain ⟨z1, h1, e⟩ := bind_inv e
  cases e
  exact fun pl i hi hp => borrow_keep ps h1 pl i hi hp

theorem readMask_keep {p : Ptr} {t : Tag} {z z' : St} {m : Word} (e : readMask p t z = .ok (m, z')) : Kept z z' := by
  unfold readMask at e
  obtain ⟨z1, h1, e⟩ := bind_inv e
  obtain ⟨n, -, e⟩ := bind_inv e
  cases e
  exact touch_keep h1

theorem readCell_keep {p : Ptr} {d : Nat} {t : Tag} {z z' : St} {c : Cell} (e : readCell p d t z = .ok (c, z')) : Kept z z' := by
  unfold readCell at e
  obtain ⟨z1, h1, e⟩ := bind_inv e
  obtain ⟨n, -, e⟩ := bind_inv e
  obtain ⟨c', -, e⟩ := bind_inv e
  cases e
  exact touch_keep h1

theorem contains_keep {p : Ptr} {t : Tag} {i : Nat} {z z' : St} {b : Bool} (e : contains p t i z = .ok (b, z')) : Kept z z' := by
  unfold contains at e
  obtain ⟨⟨u, z1⟩, h1, e⟩ := bind_inv e
  obtain ⟨⟨m, z2⟩, h2, e⟩ := bind_inv e
  obtain ⟨c, -, e⟩ := bind_inv e
  obtain ⟨-, -, e⟩ := bind_inv e
  cases e
  exact (retag_keep h1).trans (readMask_keep h2)

theorem denseIdx_keep {p : Ptr} {t : Tag} {i : Nat} {z z' : St} {d : Nat} (e : denseIdx p t i z = .ok (d, z')) : Kept z z' := by
  unfold denseIdx at e
  obtain ⟨⟨u, z1⟩, h1, e⟩ := bind_inv e
  obtain ⟨⟨m, z2⟩, h2, e⟩ := bind_inv e
  obtain ⟨c, -, e⟩ := bind_inv e
  obtain ⟨-, -, e⟩ := bind_inv e
  cases e
  exact (retag_keep h1).trans (readMask_keep h2)

theorem headerContains_keep {p : Ptr} {i : Nat} {z z' : St} {b : Bool} (e : headerContains p i z = .ok (b, z')) : Kept z z' := by
  unfold headerContains at e
  obtain ⟨⟨u, z1⟩, h1, e⟩ := bind_inv e
  exact (retag_keep h1).trans (contains_keep e)

theorem maskOf_keep {p : Ptr} {z z' : St} {m : Word} (e : maskOf p z = .ok (m, z')) : Kept z z' := by
  unfold maskOf at e
  obtain ⟨⟨t, z1⟩, h1, e⟩ := bind_inv e
  obtain ⟨⟨t2, z2⟩, h2, e⟩ := bind_inv e
  obtain ⟨⟨t3, z3⟩, h3, e⟩ := bind_inv e
  obtain ⟨-, -, e⟩ := bind_inv e
  exact (((retag_keep h1).trans (retag_keep h2)).trans (retag_keep h3)).trans (readMask_keep e)

theorem getChild_keep {p : Ptr} {i : Nat} {z z' : St} {c : Cell} (e : getChild p i z = .ok (c, z')) : Kept z z' := by
  unfold getChild at e
  obtain ⟨⟨t, z1⟩, h1, e⟩ := bind_inv e
  obtain ⟨⟨d, z2⟩, h2, e⟩ := bind_inv e
  obtain ⟨⟨t3, z3⟩, h3, e⟩ := bind_inv e
  exact (((retag_keep h1).trans (denseIdx_keep h2)).trans (retag_keep h3)).trans (readCell_keep e)

theorem readRoot_keep {z z' : St} {r : Ptr} (e : readRoot z = .ok (r, z')) : Kept z z' := by
  unfold readRoot at e
  obtain ⟨z1, h1, e⟩ := bind_inv e
  cases e
  exact touch_keep h1

theorem prevNode_keep {c : Cursor} {n : Nat} {z z' : St} {p : Ptr} (e : prevNode c n z = .ok (p, z')) : Kept z z' := by
  unfold prevNode at e
  split at e
  · exact readRoot_keep e
  · obtain ⟨o, -, e⟩ := bind_inv e
    obtain ⟨q, -, e⟩ := bind_inv e
    cases e
    exact Kept.refl z

theorem curSelect_keep {D : Nat} {c c' : Cursor} {n i : Nat} {z z' : St} {m : Mask}
    (e : curSelect D c n i z = .ok (m, c', z')) : Kept z z' := by
  unfold curSelect at e
  by_cases hn : n = 0
  · rw [if_pos hn] at e
    obtain ⟨⟨r, z1⟩, h1, e⟩ := bind_inv e
    obtain ⟨⟨w, z2⟩, h2, e⟩ := bind_inv e
    cases e
    exact (readRoot_keep h1).trans (maskOf_keep h2)
  · rw [if_neg hn] at e
    obtain ⟨⟨r, z1⟩, h1, e⟩ := bind_inv e
    obtain ⟨⟨b, z2⟩, h2, e⟩ := bind_inv e
    obtain ⟨⟨cell, z3⟩, h3, e⟩ := bind_inv e
    obtain ⟨node, -, e⟩ := bind_inv e
    have key : ∀ node', (do
        let c ← setU c (n - 1) (some node')
        let (m, z) ← maskOf node' z3
        return ([m], c, z) : R (Mask × Cursor × St)) = .ok (m, c', z') → Kept z3 z' := by
      intro node' e
      obtain ⟨c1, -, e⟩ := bind_inv e
      obtain ⟨⟨w, z4⟩, h4, e⟩ := bind_inv e
      cases e
      exact maskOf_keep h4
    refine (((prevNode_keep h1).trans (headerContains_keep h2)).trans (getChild_keep h3)).trans ?_
    cases b with
    | true => exact key node (by simpa using e)
    | false =>
      simp only [Bool.false_eq_true, if_false] at e
      obtain ⟨node', -, e⟩ := bind_inv e
      exact key node' e

theorem curSelectU_keep {c c' : Cursor} {n i : Nat} {z z' : St} {m : Mask}
    (e : curSelectU c n i z = .ok (m, c', z')) : Kept z z' := by
  unfold curSelectU at e
  by_cases hn : n = 0
  · rw [if_pos hn] at e
    obtain ⟨⟨r, z1⟩, h1, e⟩ := bind_inv e
    obtain ⟨⟨w, z2⟩, h2, e⟩ := bind_inv e
    cases e
    exact (readRoot_keep h1).trans (maskOf_keep h2)
  · rw [if_neg hn] at e
    obtain ⟨⟨r, z1⟩, h1, e⟩ := bind_inv e
    obtain ⟨⟨cell, z3⟩, h3, e⟩ := bind_inv e
    obtain ⟨node, -, e⟩ := bind_inv e
    obtain ⟨c1, -, e⟩ := bind_inv e
    obtain ⟨⟨w, z4⟩, h4, e⟩ := bind_inv e
    cases e
    exact ((prevNode_keep h1).trans (getChild_keep h3)).trans (maskOf_keep h4)

theorem curTerminal_keep {D : Nat} {c : Cursor} {z z' : St} {p : Ptr} (e : curTerminal D c z = .ok (p, z')) : Kept z z' := by
  unfold curTerminal at e
  split at e
  · exact readRoot_keep e
  · obtain ⟨o, -, e⟩ := bind_inv e
    obtain ⟨q, -, e⟩ := bind_inv e
    cases e
    exact Kept.refl z

section
variable {α : Type}

theorem curData_keep {D : Nat} {c : Cursor} {v : Vecs α} {i : Nat} {z z' : St} {x : Option α}
    (e : curData D c v i z = .ok (x, z')) : Kept z z' := by
  unfold curData at e
  obtain ⟨⟨p, z1⟩, h1, e⟩ := bind_inv e
  obtain ⟨⟨b, z2⟩, h2, e⟩ := bind_inv e
  refine ((curTerminal_keep h1).trans (headerContains_keep h2)).trans ?_
  cases b with
  | true =>
    simp only [if_true] at e
    obtain ⟨⟨cell, z3⟩, h3, e⟩ := bind_inv e
    obtain ⟨j, -, e⟩ := bind_inv e
    obtain ⟨y, -, e⟩ := bind_inv e
    obtain ⟨y', -, e⟩ := bind_inv e
    cases e
    exact getChild_keep h3
  | false =>
    simp only [Bool.false_eq_true, if_false] at e
    cases e
    exact Kept.refl _

theorem curDataU_keep {D : Nat} {c : Cursor} {v : Vecs α} {i : Nat} {z z' : St} {x : α}
    (e : curDataU D c v i z = .ok (x, z')) : Kept z z' := by
  unfold curDataU at e
  obtain ⟨⟨p, z1⟩, h1, e⟩ := bind_inv e
  obtain ⟨⟨cell, z3⟩, h3, e⟩ := bind_inv e
  obtain ⟨j, -, e⟩ := bind_inv e
  obtain ⟨y, -, e⟩ := bind_inv e
  obtain ⟨y', -, e⟩ := bind_inv e
  cases e
  exact (curTerminal_keep h1).trans (getChild_keep h3)

theorem terminalLoop_keep {indices : List Nat} : ∀ (l : List Nat) {p q : Ptr} {z z' : St},
    terminalLoop indices l p z = .ok (q, z') → Kept z z'
  | [], p, q, z, z', e => by cases e; exact Kept.refl z
  | n :: l, p, q, z, z', e => by
    unfold terminalLoop at e
    obtain ⟨i, -, e⟩ := bind_inv e
    obtain ⟨⟨cell, z1⟩, h1, e⟩ := bind_inv e
    obtain ⟨q1, -, e⟩ := bind_inv e
    exact (getChild_keep h1).trans (terminalLoop_keep l e)

theorem get_keep {D : Nat} {v : Vecs α} {k : Nat} {z z' : St} {x : Option α} (e : get D v k z = .ok (x, z')) : Kept z z' := by
  unfold get at e
  obtain ⟨k', -, e⟩ := bind_inv e
  obtain ⟨is, -, e⟩ := bind_inv e
  unfold treeData at e
  obtain ⟨⟨p, j, z1⟩, h1, e⟩ := bind_inv e
  unfold getTerminalNode at h1
  obtain ⟨⟨r, z0⟩, h0, h1⟩ := bind_inv h1
  obtain ⟨⟨q, z2⟩, h2, h1⟩ := bind_inv h1
  obtain ⟨y, -, h1⟩ := bind_inv h1
  cases h1
  obtain ⟨⟨cell, z3⟩, h3, e⟩ := bind_inv e
  obtain ⟨d, -, e⟩ := bind_inv e
  obtain ⟨key, -, e⟩ := bind_inv e
  refine (((readRoot_keep h0).trans (terminalLoop_keep _ h2)).trans (getChild_keep h3)).trans ?_
  by_cases hk : key = k'
  · rw [if_pos hk] at e
    obtain ⟨y, -, e⟩ := bind_inv e
    obtain ⟨y', -, e⟩ := bind_inv e
    cases e
    exact Kept.refl _
  · rw [if_neg hk] at e
    cases e
    exact Kept.refl _

theorem call_keep {D : Nat} {v : Vecs α} {cs cs' : Nat → Cursor} {z z' : St} {c : Call} {a : Answer α}
    (e : call D v cs z c = .ok (a, cs', z')) : Kept z z' := by
  cases c with
  | select c n i =>
    simp only [call] at e
    obtain ⟨⟨m, k, z1⟩, h1, e⟩ := bind_inv e
    cases e
    exact curSelect_keep h1
  | selectU c n i =>
    simp only [call] at e
    obtain ⟨⟨m, k, z1⟩, h1, e⟩ := bind_inv e
    cases e
    exact curSelectU_keep h1
  | data c i =>
    simp only [call] at e
    obtain ⟨⟨x, z1⟩, h1, e⟩ := bind_inv e
    cases e
    exact curData_keep h1
  | dataU c i =>
    simp only [call] at e
    obtain ⟨⟨x, z1⟩, h1, e⟩ := bind_inv e
    cases e
    exact curDataU_keep h1
  | get k =>
    simp only [call] at e
    obtain ⟨⟨x, z1⟩, h1, e⟩ := bind_inv e
    cases e
    exact get_keep h1

theorem calls_keep {D : Nat} {v : Vecs α} : ∀ (l : List Call) {z z' : St} {cs cs' : Nat → Cursor} {as : List (Answer α)},
    calls D v cs z l = .ok (as, cs', z') → Kept z z'
  | [], z, z', cs, cs', as, e => by cases e; exact Kept.refl z
  | c :: l, z, z', cs, cs', as, e => by
    simp only [calls] at e
    obtain ⟨⟨a, cs1, z1⟩, h1, e⟩ := bind_inv e
    obtain ⟨⟨as1, cs2, z2⟩, h2, e⟩ := bind_inv e
    cases e
    exact (call_keep h1).trans (calls_keep l h2)

/-- A shared borrow on the stack may be read through. -/
theorem touch_shared {z : St} {pl : Place} {i : Item} (hi : i ∈ z.stk pl) : ∃ z', touch pl .read (some i.tag) z = .ok z' := by
  obtain ⟨z', e, -⟩ := touch_ok (w := .read) (t := some i.tag) (z := z) (pl := pl) ⟨i, hi, by simp [Item.grants]⟩
  exact ⟨z', e⟩

end

end Hibit.Alias
