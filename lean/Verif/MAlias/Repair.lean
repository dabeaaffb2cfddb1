import Verif.MAlias.Iterate
/-!
# The repair of finding 27

The code of `MAlias/Model` with one line changed: the previous level's list is borrowed alone, not through a `&` to the whole slice.
This is not the code of the crate; it shows that the fault is that line and nothing else.
-/
namespace Hibit.MAlias
open Hibit
open Hibit.Typed (Rel)

/-- In place of _multi_union.rs:217-218: `&*lvls_non_empty_states.as_ptr().cast::<…>().add(level_n - 2)`. -/
def prevAlone (n : Nat) (p : Tag) (z : St) : R (Tag × St) := retag .shared p [.lvl (n - 2)] z

section
variable {S C δ : Type} {I : Impl S C δ} {i : Nat}

/-- _multi_union.rs:180-222 with `prevAlone`. -/
def selectRepaired (I : Impl S C δ) (x : Cursor S C) (n i : Nat) : R (Mask × Cursor S C) := do
  let c := x.cur
  let acc := zeroMask I.N
  if n = 0 then
    let (s, z) ← retag .uniq none (whole c.lvls.length) x.st
    let z ← method .uniq s .cursors z
    let (m, cs) ← muSelectRoot I i c.cursors acc
    leave s (whole c.lvls.length) z
    return (m, ⟨{ c with cursors := cs }, z⟩)
  else
    let lvls ← setU c.lvls (n - 1) []
    let ((s, p, u, l), z) ← enter c.lvls.length n x.st
    if n = 1 then
      let ((m, cs, ne), z) ← foreach I n i u l none (List.range (c.cursors.length % 256)) c.cursors [] acc z
      let lvls ← setU lvls (n - 1) ne
      leave s (whole c.lvls.length) z
      return (m, ⟨⟨cs, lvls⟩, z⟩)
    else
      let ks ← getU lvls (n - 2)
      let (r, z) ← prevAlone n p z
      let ((m, cs, ne), z) ← foreach I n i u l (some (r, .lvl (n - 2))) ks c.cursors [] acc z
      let lvls ← setU lvls (n - 1) ne
      leave s (whole c.lvls.length) z
      return (m, ⟨⟨cs, lvls⟩, z⟩)

theorem foreach_live {z0 : St} {L n : Nat} (h2 : 2 ≤ n) (hn : n - 1 < L) {u l r : Nat} {RX RA RP B : List Item} : ∀ (ks : List Nat)
    (cs : List (S × C)) (ne : List Nat) (acc : Mask) (A X : List Item) (nx : Nat), Good u RX X → Good l RA A → u < nx → l < nx →
    Rel (fun a b => a = b.1 ∧ ∃ A' X' nx', Good u RX X' ∧ Good l RA A' ∧ b.2 = lay z0 L n A' (⟨.shared, r⟩ :: RP) B X' nx')
      (muSelectSome I n i ks cs ne acc)
      (foreach I n i (some u) (some l) (some (some r, .lvl (n - 2))) ks cs ne acc (lay z0 L n A (⟨.shared, r⟩ :: RP) B X nx))
  | [], cs, ne, acc, A, X, nx, hX, hA, _, _ => .ok ⟨rfl, A, X, nx, hX, hA, rfl⟩
  | k :: ks, cs, ne, acc, A, X, nx, hX, hA, hu, hl => by
    unfold muSelectSome foreach
    simp only
    rw [touch_prev h2 hn (acc_head _ (g_read _ _)), bind_ok]
    rw [method_cur (pm := .uniq) (by decide) hX, bind_ok]
    refine Rel.same fun sc _ => ?_
    refine Rel.same fun mc _ => ?_
    refine Rel.same fun cs' _ => ?_
    cases hz : isZero mc.1 with
    | true =>
      simp only [Bool.not_true, Bool.false_eq_true, if_false, pure_eq_ok, bind_ok]
      exact foreach_live h2 hn ks _ _ _ _ _ _ (Good.push (by omega)) hA (by omega) (by omega)
    | false =>
      simp only [Bool.not_false, if_true]
      rw [method_lvl (pm := .uniq) hn hA, bind_ok]
      refine Rel.same fun ne' _ => ?_
      exact foreach_live h2 hn ks _ _ _ _ _ _ (Good.push (by omega)) (Good.push (by omega)) (by omega) (by omega)

theorem prevAlone_eq {L n : Nat} (z : St) (h2 : 2 ≤ n) (hn : n - 1 < L) : prevAlone n (some (z.next + 2)) (entered L n z) =
    .ok (some (z.next + 10), lay z L n
    [⟨.uniq, z.next + 9⟩, ⟨.uniq, z.next + 5⟩, ⟨.uniq, z.next + 4⟩, ⟨.uniq, z.next + 3⟩, ⟨.raw, z.next + 2⟩, ⟨.uniq, z.next + 1⟩,
      ⟨.uniq, z.next⟩]
    [⟨.shared, z.next + 10⟩, ⟨.raw, z.next + 2⟩, ⟨.uniq, z.next + 1⟩, ⟨.uniq, z.next⟩]
    [⟨.uniq, z.next + 4⟩, ⟨.uniq, z.next + 3⟩, ⟨.raw, z.next + 2⟩, ⟨.uniq, z.next + 1⟩, ⟨.uniq, z.next⟩]
    [⟨.uniq, z.next + 8⟩, ⟨.uniq, z.next⟩] (z.next + 11)) := by
  unfold prevAlone entered
  have hs : ∀ (k : Nat) (s : List Item), k ≠ z.next + 2 → access .read (some (z.next + 2)) (⟨.uniq, k⟩ :: s) =
      access .read (some (z.next + 2)) s := fun k s h => acc_read_skip s (g_not _ _ _ _ h) rfl
  have hr : ∀ s, access .read (some (z.next + 2)) (⟨.raw, z.next + 2⟩ :: s) = some (⟨.raw, z.next + 2⟩ :: s) :=
    fun s => acc_head s (g_read _ _)
  rw [retag_prev (pm := .shared) (P' := [⟨.raw, z.next + 2⟩, ⟨.uniq, z.next + 1⟩, ⟨.uniq, z.next⟩]) h2 hn
    (by show access .read _ _ = _; rw [hs _ _ (by omega), hs _ _ (by omega), hr])]

/-- The repaired selection is the one without borrows, at every level, from every state. -/
theorem selectRepaired_eq (x : Cursor S C) (n : Nat) :
    Rel (fun a b => a.1 = b.1 ∧ b.2.cur = a.2) (muSelect I x.cur n i) (selectRepaired I x n i) := by
  unfold muSelect selectRepaired
  simp only
  by_cases h0 : n = 0
  · rw [if_pos h0, if_pos h0]
    rw [retag_whole (n := n) x.st, bind_ok]
    simp only
    rw [method_cur (pm := .uniq) (by decide) (acc_head _ (g_write _ _ (by decide))), bind_ok]
    refine Rel.same fun a _ => ?_
    rw [leave_whole (by simp [On]) (by simp [On]) (by simp [On]) (by simp [On]), bind_ok]
    exact .ok ⟨rfl, rfl⟩
  · rw [if_neg h0, if_neg h0]
    refine Rel.same fun lvls hl => ?_
    have hn : n - 1 < x.cur.lvls.length := (setU_inv hl).2
    rw [enter_eq x.st hn, bind_ok]
    simp only
    by_cases h1 : n = 1
    · rw [if_pos h1, if_pos h1]
      simp only [pure_eq_ok, bind_ok]
      refine Rel.bind (foreach_shallow (I := I) (i := i) hn (RX := [⟨.uniq, x.st.next⟩]) (RA := _) _ _ _ _ _ _ _
        (acc_head _ (g_write _ _ (by decide))) (acc_head _ (g_write _ _ (by decide))) (by omega) (by omega)) fun a b hab => ?_
      obtain ⟨rfl, A', X', nx', hX, hA, hz⟩ := hab
      obtain ⟨⟨m, cs, ne⟩, z'⟩ := b
      simp only at hz ⊢
      subst hz
      refine Rel.same fun lvls' _ => ?_
      rw [leave_whole (hA.on (by simp [On])) (by simp [On]) (by simp [On]) (hX.on (by simp [On])), bind_ok]
      exact .ok ⟨rfl, rfl⟩
    · rw [if_neg h1, if_neg h1]
      refine Rel.same fun ks _ => ?_
      have h2 : 2 ≤ n := by omega
      rw [prevAlone_eq x.st h2 hn, bind_ok]
      simp only
      refine Rel.bind (foreach_live (I := I) (i := i) h2 hn (RX := [⟨.uniq, x.st.next⟩]) (RA := _) _ _ _ _ _ _ _
        (acc_head _ (g_write _ _ (by decide))) (acc_head _ (g_write _ _ (by decide))) (by omega) (by omega)) fun a b hab => ?_
      obtain ⟨rfl, A', X', nx', hX, hA, hz⟩ := hab
      obtain ⟨⟨m, cs, ne⟩, z'⟩ := b
      simp only at hz ⊢
      subst hz
      refine Rel.same fun lvls' _ => ?_
      rw [leave_whole (hA.on (by simp [On])) (by simp [On]) (by simp [On]) (hX.on (by simp [On])), bind_ok]
      exact .ok ⟨rfl, rfl⟩

end

end Hibit.MAlias
