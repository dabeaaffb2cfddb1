import Verif.MAlias.Select
import Verif.Ops.LawfulMU
import Verif.TreeOf
/-!
# Selecting an empty node of level 2 or deeper makes no violation
-/
namespace Hibit.MAlias
open Hibit
open Hibit.Typed (Rel)

section
variable {S C δ : Type} {I : Impl S C δ} {i : Nat}

/-- The list of sources with a non-empty node only grows. -/
theorem muSelectSome_len {n : Nat} : ∀ (ks : List Nat) (cs : List (S × C)) (ne : List Nat) (acc : Mask)
    {m : Mask} {cs' : List (S × C)} {ne' : List Nat}, muSelectSome I n i ks cs ne acc = .ok (m, cs', ne') → ne.length ≤ ne'.length
  | [], cs, ne, acc, m, cs', ne', e => by cases e; exact Nat.le_refl _
  | k :: ks, cs, ne, acc, m, cs', ne', e => by
    unfold muSelectSome at e
    obtain ⟨sc, -, e⟩ := bind_inv e
    obtain ⟨mc, -, e⟩ := bind_inv e
    obtain ⟨cs1, -, e⟩ := bind_inv e
    cases hz : isZero mc.1 with
    | true =>
      rw [hz] at e
      simp only [Bool.not_true, Bool.false_eq_true, if_false, pure_eq_ok, bind_ok] at e
      exact muSelectSome_len ks _ _ _ e
    | false =>
      rw [hz] at e
      simp only [Bool.not_false, if_true] at e
      obtain ⟨ne1, e1, e⟩ := bind_inv e
      have := muSelectSome_len ks _ _ _ e
      unfold avPushU at e1
      split at e1
      · cases e1; simp at this; omega
      · cases e1

/-- Without a push there is no violation. -/
theorem foreach_quiet {z0 : St} {L n : Nat} (h2 : 2 ≤ n) (hn : n - 1 < L) {u r : Nat} {l : Tag} {RX A RP B : List Item} :
    ∀ (ks : List Nat) (cs : List (S × C)) (ne : List Nat) (acc : Mask) (X : List Item) (nx : Nat), Good u RX X → u < nx →
    ∀ {m : Mask} {cs' : List (S × C)} {ne' : List Nat}, muSelectSome I n i ks cs ne acc = .ok (m, cs', ne') →
    ne'.length = ne.length → ∃ X' nx', Good u RX X' ∧
      foreach I n i (some u) l (some (some r, .lvl (n - 2))) ks cs ne acc (lay z0 L n A (⟨.shared, r⟩ :: RP) B X nx) =
        .ok ((m, cs', ne'), lay z0 L n A (⟨.shared, r⟩ :: RP) B X' nx')
  | [], cs, ne, acc, X, nx, hX, _, m, cs', ne', e, _ => by
    cases e
    exact ⟨X, nx, hX, rfl⟩
  | k :: ks, cs, ne, acc, X, nx, hX, hu, m, cs', ne', e, hl => by
    unfold muSelectSome at e
    obtain ⟨sc, g1, e⟩ := bind_inv e
    obtain ⟨mc, g2, e⟩ := bind_inv e
    obtain ⟨cs1, g3, e⟩ := bind_inv e
    cases hz : isZero mc.1 with
    | false =>
      exfalso
      rw [hz] at e
      simp only [Bool.not_false, if_true] at e
      obtain ⟨ne1, g4, e⟩ := bind_inv e
      have := muSelectSome_len ks _ _ _ e
      unfold avPushU at g4
      split at g4
      · cases g4; simp at this; omega
      · cases g4
    | true =>
      rw [hz] at e
      simp only [Bool.not_true, Bool.false_eq_true, if_false, pure_eq_ok, bind_ok] at e
      obtain ⟨X', nx', hX', h⟩ := foreach_quiet (z0 := z0) (A := A) (RP := RP) (B := B) (l := l) h2 hn ks _ _ _ _ (nx + 1)
        (Good.push (u := u) (k := nx) (R := RX) (by omega)) (by omega) e hl
      refine ⟨X', nx', hX', ?_⟩
      unfold foreach
      simp only
      rw [touch_prev h2 hn (acc_head _ (g_read _ _)), bind_ok]
      rw [method_cur (pm := .uniq) (by decide) hX, bind_ok, g1, bind_ok, g2, bind_ok]
      rw [g3, bind_ok, if_neg (by rw [hz]; decide)]
      exact h

/-- A selection of level 2 or deeper that finds no source with a non-empty node is the one without borrows. -/
theorem select_quiet (x : Cursor S C) {n : Nat} (h2 : 2 ≤ n) {m : Mask} {c : MUCursor S C}
    (e : muSelect I x.cur n i = .ok (m, c)) (hne : c.lvls[n - 1]? = some []) :
    ∃ y, select I x n i = .ok (m, y) ∧ y.cur = c := by
  unfold muSelect at e
  unfold select
  simp only at e ⊢
  rw [if_neg (by omega)] at e ⊢
  obtain ⟨lvls, g1, e⟩ := bind_inv e
  rw [if_neg (by omega)] at e
  obtain ⟨ks, g2, e⟩ := bind_inv e
  obtain ⟨⟨m', cs', ne'⟩, g3, e⟩ := bind_inv e
  obtain ⟨lvls', g4, e⟩ := bind_inv e
  cases e
  obtain ⟨hl', hlt⟩ := setU_inv g4
  have hn : n - 1 < x.cur.lvls.length := (setU_inv g1).2
  have : ne' = [] := by
    simp only at hne
    rw [hl', List.getElem?_set_self hlt] at hne
    exact Option.some.inj hne
  subst this
  rw [g1, bind_ok, enter_eq x.st hn, bind_ok]
  simp only
  rw [if_neg (by omega), g2, bind_ok, prevList_eq x.st h2 hn, bind_ok]
  simp only
  obtain ⟨X', nx', hX', h⟩ := foreach_quiet (z0 := x.st) (L := x.cur.lvls.length) (u := x.st.next + 8) (r := x.st.next + 12)
    (l := some (x.st.next + 9)) (RX := [⟨.uniq, x.st.next⟩])
    (A := [⟨.shared, x.st.next + 11⟩, ⟨.shared, x.st.next + 10⟩, ⟨.raw, x.st.next + 2⟩, ⟨.uniq, x.st.next + 1⟩, ⟨.uniq, x.st.next⟩])
    (RP := [⟨.shared, x.st.next + 11⟩, ⟨.shared, x.st.next + 10⟩, ⟨.raw, x.st.next + 2⟩, ⟨.uniq, x.st.next + 1⟩, ⟨.uniq, x.st.next⟩])
    (B := [⟨.shared, x.st.next + 11⟩, ⟨.shared, x.st.next + 10⟩, ⟨.raw, x.st.next + 2⟩, ⟨.uniq, x.st.next + 1⟩, ⟨.uniq, x.st.next⟩])
    h2 hn ks x.cur.cursors [] (zeroMask I.N) [⟨.uniq, x.st.next + 8⟩, ⟨.uniq, x.st.next⟩] (x.st.next + 13)
    (acc_head _ (g_write _ _ (by decide))) (by omega) g3 rfl
  have hz : ∃ z, foreach I n i (some (x.st.next + 8)) (some (x.st.next + 9)) (some (some (x.st.next + 12), .lvl (n - 2)))
      ks x.cur.cursors [] (zeroMask I.N) (readied x.cur.lvls.length n x.st) = .ok ((m', cs', []), z) ∧
      leave (some x.st.next) (whole x.cur.lvls.length) z = .ok () :=
    ⟨_, h, leave_whole (by simp [On]) (by simp [On]) (by simp [On]) (hX'.on (by simp [On]))⟩
  obtain ⟨z, e1, e2⟩ := hz
  refine ⟨⟨⟨cs', lvls'⟩, z⟩, ?_, rfl⟩
  rw [e1, bind_ok]
  simp only
  rw [g4, bind_ok, e2, bind_ok]
  rfl

end

end Hibit.MAlias
