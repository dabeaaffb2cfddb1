import Verif.MAlias.Lemmas
/-!
# A selection with borrows against the one without
-/
namespace Hibit.MAlias
open Hibit
open Hibit.Typed (Rel)

/-- The two computations agree (`Q` on results, the same error), unless `deep` and the second is undefined behaviour. -/
def Sim {A B : Type} (deep : Prop) (Q : A → B → Prop) (x : R A) (y : R B) : Prop :=
  (deep ∧ y = .error .ub) ∨ Rel Q x y

section
variable {A B A' B' X : Type} {deep : Prop} {Q : A → B → Prop} {Q' : A' → B' → Prop}

theorem Sim.ok {a : A} {b : B} (h : Q a b) : Sim deep Q (.ok a) (.ok b) := Or.inr (.ok h)

theorem Sim.err {e : Err} : Sim deep Q (.error e) (.error e) := Or.inr .err

theorem Sim.bind {x : R A} {y : R B} {f : A → R A'} {g : B → R B'} (h : Sim deep Q x y)
    (hf : ∀ a b, Q a b → Sim deep Q' (f a) (g b)) : Sim deep Q' (x >>= f) (y >>= g) := by
  rcases h with ⟨hd, e⟩ | h
  · left; rw [e]; exact ⟨hd, rfl⟩
  · cases h with
    | ok q => exact hf _ _ q
    | err => exact Or.inr .err

theorem Sim.same {x : R X} {f : X → R A'} {g : X → R B'} (hf : ∀ a, x = .ok a → Sim deep Q' (f a) (g a)) :
    Sim deep Q' (x >>= f) (x >>= g) := by
  cases x with
  | ok a => exact hf a rfl
  | error e => exact Or.inr .err

theorem Sim.skip {x : R A} {y : R X} {b : X} {f : X → R B} (e : y = .ok b) (h : Sim deep Q x (f b)) :
    Sim deep Q x (y >>= f) := by
  rw [e]; exact h

theorem Sim.ite {p : Prop} [Decidable p] {x x' : R A} {y y' : R B} (h1 : p → Sim deep Q x y)
    (h2 : ¬ p → Sim deep Q x' y') : Sim deep Q (if p then x else x') (if p then y else y') := by
  by_cases h : p
  · rw [if_pos h, if_pos h]; exact h1 h
  · rw [if_neg h, if_neg h]; exact h2 h

end

/-! ## Entering -/

section
variable {L n : Nat} (z : St)

/-- The borrows when `foreach` has captured its references. -/
def entered (L n : Nat) (z : St) : St :=
  lay z L n
    [⟨.uniq, z.next + 9⟩, ⟨.uniq, z.next + 5⟩, ⟨.uniq, z.next + 4⟩, ⟨.uniq, z.next + 3⟩, ⟨.raw, z.next + 2⟩, ⟨.uniq, z.next + 1⟩,
      ⟨.uniq, z.next⟩]
    [⟨.uniq, z.next + 4⟩, ⟨.uniq, z.next + 3⟩, ⟨.raw, z.next + 2⟩, ⟨.uniq, z.next + 1⟩, ⟨.uniq, z.next⟩]
    [⟨.uniq, z.next + 4⟩, ⟨.uniq, z.next + 3⟩, ⟨.raw, z.next + 2⟩, ⟨.uniq, z.next + 1⟩, ⟨.uniq, z.next⟩]
    [⟨.uniq, z.next + 8⟩, ⟨.uniq, z.next⟩] (z.next + 10)

theorem g_write (pm : Perm) (k : Nat) (hp : pm ≠ .shared) : (⟨pm, k⟩ : Item).grants .write k = true := by
  simp [Item.grants, hp]

theorem g_read (pm : Perm) (k : Nat) : (⟨pm, k⟩ : Item).grants .read k = true := by
  simp [Item.grants]

theorem g_not (pm : Perm) (w : Acc) (j k : Nat) (h : j ≠ k) : (⟨pm, j⟩ : Item).grants w k = false := by
  simp [Item.grants, h]

theorem enter_eq (hn : n - 1 < L) : enter L n z =
    .ok ((some z.next, some (z.next + 2), some (z.next + 8), some (z.next + 9)), entered L n z) := by
  unfold enter
  rw [retag_whole (n := n) z, bind_ok]
  simp only
  rw [retag_slice (acc_head _ (g_write _ _ (by decide))) (acc_head _ (g_write _ _ (by decide)))
    (acc_head _ (g_write _ _ (by decide))), bind_ok]
  simp only
  rw [retag_slice (acc_head _ (g_write _ _ (by decide))) (acc_head _ (g_write _ _ (by decide)))
    (acc_head _ (g_write _ _ (by decide))), bind_ok]
  simp only
  rw [retag_slice (acc_head _ (g_write _ _ (by decide))) (acc_head _ (g_write _ _ (by decide)))
    (acc_head _ (g_write _ _ (by decide))), bind_ok]
  simp only
  rw [retag_slice (acc_head _ (g_write _ _ (by decide))) (acc_head _ (g_write _ _ (by decide)))
    (acc_head _ (g_write _ _ (by decide))), bind_ok]
  simp only
  rw [retag_lvl hn (acc_head _ (g_write _ _ (by decide))), bind_ok]
  simp only
  rw [leave_slice (by simp [On]) (by simp [On]) (by simp [On]), bind_ok]
  rw [method_lvl hn (acc_head _ (g_write _ _ (by decide))), bind_ok]
  rw [method_cur (by decide) (acc_head _ (g_read _ _)), bind_ok]
  rw [retag_cur (pm := .uniq) (X' := [⟨.uniq, z.next⟩]) (by
    show access .write _ _ = _
    rw [acc_write_skip _ (g_not _ _ _ _ (by omega))]
    exact acc_head _ (g_write _ _ (by decide))), bind_ok]
  simp only
  rw [retag_lvl (pm := .uniq) hn (by
    show access .write _ _ = _
    rw [acc_write_skip _ (g_not _ _ _ _ (by omega))]
    exact acc_head _ (g_write _ _ (by decide))), bind_ok]
  rfl

/-- The borrows when the previous level's list has been borrowed: those of the selected level's list are gone. -/
def readied (L n : Nat) (z : St) : St :=
  lay z L n
    [⟨.shared, z.next + 11⟩, ⟨.shared, z.next + 10⟩, ⟨.raw, z.next + 2⟩, ⟨.uniq, z.next + 1⟩, ⟨.uniq, z.next⟩]
    [⟨.shared, z.next + 12⟩, ⟨.shared, z.next + 11⟩, ⟨.shared, z.next + 10⟩, ⟨.raw, z.next + 2⟩, ⟨.uniq, z.next + 1⟩, ⟨.uniq, z.next⟩]
    [⟨.shared, z.next + 11⟩, ⟨.shared, z.next + 10⟩, ⟨.raw, z.next + 2⟩, ⟨.uniq, z.next + 1⟩, ⟨.uniq, z.next⟩]
    [⟨.uniq, z.next + 8⟩, ⟨.uniq, z.next⟩] (z.next + 13)

theorem prevList_eq (h2 : 2 ≤ n) (hn : n - 1 < L) : prevList L n (some (z.next + 2)) (entered L n z) =
    .ok (some (z.next + 12), readied L n z) := by
  unfold prevList entered
  have hs : ∀ (k : Nat) (s : List Item), k ≠ z.next + 2 → access .read (some (z.next + 2)) (⟨.uniq, k⟩ :: s) =
      access .read (some (z.next + 2)) s := fun k s h => acc_read_skip s (g_not _ _ _ _ h) rfl
  have hr : ∀ s, access .read (some (z.next + 2)) (⟨.raw, z.next + 2⟩ :: s) = some (⟨.raw, z.next + 2⟩ :: s) :=
    fun s => acc_head s (g_read _ _)
  rw [retag_slice (pm := .shared)
    (A' := [⟨.raw, z.next + 2⟩, ⟨.uniq, z.next + 1⟩, ⟨.uniq, z.next⟩])
    (P' := [⟨.raw, z.next + 2⟩, ⟨.uniq, z.next + 1⟩, ⟨.uniq, z.next⟩])
    (B' := [⟨.raw, z.next + 2⟩, ⟨.uniq, z.next + 1⟩, ⟨.uniq, z.next⟩])
    (by show access .read _ _ = _; rw [hs _ _ (by omega), hs _ _ (by omega), hs _ _ (by omega), hs _ _ (by omega), hr])
    (by show access .read _ _ = _; rw [hs _ _ (by omega), hs _ _ (by omega), hr])
    (by show access .read _ _ = _; rw [hs _ _ (by omega), hs _ _ (by omega), hr]), bind_ok]
  simp only
  rw [retag_slice (pm := .shared) (acc_head _ (g_read _ _)) (acc_head _ (g_read _ _)) (acc_head _ (g_read _ _)), bind_ok]
  simp only
  rw [retag_prev (pm := .shared) h2 hn (acc_head _ (g_read _ _)), bind_ok]
  simp only
  rw [leave_slice (by simp [On]) (by simp [On]) (by simp [On]), bind_ok]
  rfl

end

/-! ## The loop -/

section
variable {S C δ : Type} {I : Impl S C δ} {i : Nat}

/-- What `foreach` leaves on `cursors`: its captured reference `u` is still good. -/
def Good (u : Nat) (R X : List Item) : Prop := access .write (some u) X = some (⟨.uniq, u⟩ :: R)

theorem Good.push {u k : Nat} {R : List Item} (h : k ≠ u) : Good u R (⟨.uniq, k⟩ :: ⟨.uniq, u⟩ :: R) := by
  unfold Good
  rw [acc_write_skip _ (g_not _ _ _ _ h)]
  exact acc_head _ (g_write _ _ (by decide))

theorem Good.on {u s : Nat} {R X : List Item} (h : Good u R X) (hs : On s R) : On s X := by
  unfold Good access at h
  simp only at h
  have hsplit := List.takeWhile_append_dropWhile (p := fun j : Item => !j.grants .write u) (l := X)
  generalize hr : X.dropWhile (fun j : Item => !j.grants .write u) = rest at h hsplit
  cases rest with
  | nil => cases h
  | cons a l =>
    simp only [if_true, Option.some.injEq] at h
    rw [← hsplit, h]
    unfold On at hs ⊢
    rw [List.any_append, List.any_cons, hs]
    simp

/-- Levels 1: the list of the selected level is pushed to through a live reference. -/
theorem foreach_shallow {z0 : St} {L n : Nat} (hn : n - 1 < L) {u l : Nat} {RX RA P B : List Item} : ∀ (ks : List Nat)
    (cs : List (S × C)) (ne : List Nat) (acc : Mask) (A X : List Item) (nx : Nat), Good u RX X → Good l RA A → u < nx → l < nx →
    Rel (fun a b => a = b.1 ∧ ∃ A' X' nx', Good u RX X' ∧ Good l RA A' ∧ b.2 = lay z0 L n A' P B X' nx')
      (muSelectSome I n i ks cs ne acc) (foreach I n i (some u) (some l) none ks cs ne acc (lay z0 L n A P B X nx))
  | [], cs, ne, acc, A, X, nx, hX, hA, _, _ => .ok ⟨rfl, A, X, nx, hX, hA, rfl⟩
  | k :: ks, cs, ne, acc, A, X, nx, hX, hA, hu, hl => by
    unfold muSelectSome foreach
    simp only [bind_ok]
    rw [method_cur (pm := .uniq) (by decide) hX, bind_ok]
    refine Rel.same fun sc _ => ?_
    refine Rel.same fun mc _ => ?_
    refine Rel.same fun cs' _ => ?_
    cases hz : isZero mc.1 with
    | true =>
      simp only [Bool.not_true, Bool.false_eq_true, if_false, pure_eq_ok, bind_ok]
      exact foreach_shallow hn ks _ _ _ _ _ _ (Good.push (by omega)) hA (by omega) (by omega)
    | false =>
      simp only [Bool.not_false, if_true]
      rw [method_lvl (pm := .uniq) hn hA, bind_ok]
      refine Rel.same fun ne' _ => ?_
      exact foreach_shallow hn ks _ _ _ _ _ _ (Good.push (by omega)) (Good.push (by omega)) (by omega) (by omega)

theorem or_quiet {a b : Mask} (ha : ∀ j, a.bit j = false) (hb : ∀ j, b.bit j = false) (j : Nat) : (orMask a b).bit j = false := by
  have ha := ha j
  have hb := hb j
  unfold Mask.bit orMask at *
  rw [List.getD_eq_getElem?_getD] at *
  rw [List.getElem?_zipWith]
  cases h1 : a[j / 64]? with
  | none => simp
  | some x =>
    cases h2 : b[j / 64]? with
    | none => simp
    | some y =>
      rw [h1] at ha
      rw [h2] at hb
      simp only [Option.getD_some] at ha hb ⊢
      rw [BitVec.getLsbD_or, ha, hb]
      rfl

/-- Deeper levels: the first non-empty mask is undefined behaviour, so only empty ones are ever returned. -/
theorem foreach_deep {z0 : St} {L n : Nat} (h2 : 2 ≤ n) (hn : n - 1 < L) {u l r : Nat} {RX A RP B : List Item}
    (hA : access .write (some l) A = none) : ∀ (ks : List Nat)
    (cs : List (S × C)) (ne : List Nat) (acc : Mask) (X : List Item) (nx : Nat), Good u RX X → u < nx → (∀ j, acc.bit j = false) →
    Sim True (fun a b => a = b.1 ∧ (∀ j, a.1.bit j = false) ∧
        ∃ X' nx', Good u RX X' ∧ b.2 = lay z0 L n A (⟨.shared, r⟩ :: RP) B X' nx')
      (muSelectSome I n i ks cs ne acc)
      (foreach I n i (some u) (some l) (some (some r, .lvl (n - 2))) ks cs ne acc (lay z0 L n A (⟨.shared, r⟩ :: RP) B X nx))
  | [], cs, ne, acc, X, nx, hX, _, hq => .ok ⟨rfl, hq, X, nx, hX, rfl⟩
  | k :: ks, cs, ne, acc, X, nx, hX, hu, hq => by
    unfold muSelectSome foreach
    simp only
    rw [touch_prev h2 hn (acc_head _ (g_read _ _)), bind_ok]
    rw [method_cur (pm := .uniq) (by decide) hX, bind_ok]
    refine Sim.same fun sc _ => ?_
    refine Sim.same fun mc _ => ?_
    refine Sim.same fun cs' _ => ?_
    cases hz : isZero mc.1 with
    | true =>
      simp only [Bool.not_true, Bool.false_eq_true, if_false, pure_eq_ok, bind_ok]
      exact foreach_deep h2 hn hA ks _ _ _ _ _ (Good.push (by omega)) (by omega) (or_quiet hq ((isZero_iff _).1 hz))
    | false =>
      simp only [Bool.not_false, if_true]
      rw [method_lvl_ub (pm := .uniq) hn hA]
      exact Or.inl ⟨trivial, rfl⟩

/-! ## A selection -/

theorem zeroMask_quiet (N j : Nat) : (zeroMask N).bit j = false := by
  unfold Mask.bit zeroMask
  rw [List.getD_eq_getElem?_getD, List.getElem?_replicate]
  split <;> simp

/-- A selection with borrows gives what the one without gives, except that from level 2 on a non-empty result is undefined
behaviour. -/
theorem select_sim (x : Cursor S C) (n : Nat) :
    Sim (2 ≤ n) (fun a b => a.1 = b.1 ∧ b.2.cur = a.2 ∧ (2 ≤ n → ∀ j, a.1.bit j = false))
      (muSelect I x.cur n i) (select I x n i) := by
  unfold muSelect select
  simp only
  by_cases h0 : n = 0
  · rw [if_pos h0, if_pos h0]
    rw [retag_whole (n := n) x.st, bind_ok]
    simp only
    rw [method_cur (pm := .uniq) (by decide) (acc_head _ (g_write _ _ (by decide))), bind_ok]
    refine Sim.same fun a _ => ?_
    rw [leave_whole (by simp [On]) (by simp [On]) (by simp [On]) (by simp [On]), bind_ok]
    exact Sim.ok ⟨rfl, rfl, fun h => by omega⟩
  · rw [if_neg h0, if_neg h0]
    refine Sim.same fun lvls hl => ?_
    have hn : n - 1 < x.cur.lvls.length := (setU_inv hl).2
    rw [enter_eq x.st hn, bind_ok]
    simp only
    by_cases h1 : n = 1
    · rw [if_pos h1, if_pos h1]
      simp only [pure_eq_ok, bind_ok]
      refine Sim.bind (Or.inr (foreach_shallow (I := I) (i := i) hn (RX := [⟨.uniq, x.st.next⟩]) (RA := _) _ _ _ _ _ _ _
        (acc_head _ (g_write _ _ (by decide))) (acc_head _ (g_write _ _ (by decide))) (by omega) (by omega))) fun a b hab => ?_
      obtain ⟨rfl, A', X', nx', hX, hA, hz⟩ := hab
      obtain ⟨⟨m, cs, ne⟩, z'⟩ := b
      simp only at hz ⊢
      subst hz
      refine Sim.same fun lvls' _ => ?_
      rw [leave_whole (hA.on (by simp [On])) (by simp [On]) (by simp [On]) (hX.on (by simp [On])), bind_ok]
      exact Sim.ok ⟨rfl, rfl, fun h => by omega⟩
    · rw [if_neg h1, if_neg h1]
      refine Sim.same fun ks _ => ?_
      have h2 : 2 ≤ n := by omega
      rw [prevList_eq x.st h2 hn, bind_ok]
      simp only
      have hd := foreach_deep (I := I) (i := i) (z0 := x.st) h2 hn (u := x.st.next + 8) (l := x.st.next + 9) (r := x.st.next + 12)
        (RX := [⟨.uniq, x.st.next⟩])
        (A := [⟨.shared, x.st.next + 11⟩, ⟨.shared, x.st.next + 10⟩, ⟨.raw, x.st.next + 2⟩, ⟨.uniq, x.st.next + 1⟩, ⟨.uniq, x.st.next⟩])
        (RP := [⟨.shared, x.st.next + 11⟩, ⟨.shared, x.st.next + 10⟩, ⟨.raw, x.st.next + 2⟩, ⟨.uniq, x.st.next + 1⟩, ⟨.uniq, x.st.next⟩])
        (B := [⟨.shared, x.st.next + 11⟩, ⟨.shared, x.st.next + 10⟩, ⟨.raw, x.st.next + 2⟩, ⟨.uniq, x.st.next + 1⟩, ⟨.uniq, x.st.next⟩])
        (by
          rw [acc_write_skip _ (g_not _ _ _ _ (by omega)), acc_write_skip _ (g_not _ _ _ _ (by omega)),
            acc_write_skip _ (g_not _ _ _ _ (by omega)), acc_write_skip _ (g_not _ _ _ _ (by omega)),
            acc_write_skip _ (g_not _ _ _ _ (by omega))]
          rfl)
        ks x.cur.cursors [] (zeroMask I.N) [⟨.uniq, x.st.next + 8⟩, ⟨.uniq, x.st.next⟩] (x.st.next + 13)
        (acc_head _ (g_write _ _ (by decide))) (by omega) (zeroMask_quiet I.N)
      have hd' := hd.imp (fun h => (⟨h2, h.2⟩ : 2 ≤ n ∧ _)) id
      refine Sim.bind (deep := 2 ≤ n) hd' fun a b hab => ?_
      obtain ⟨rfl, hq, X', nx', hX, hz⟩ := hab
      obtain ⟨⟨m, cs, ne⟩, z'⟩ := b
      simp only at hz hq ⊢
      subst hz
      refine Sim.same fun lvls' _ => ?_
      rw [leave_whole (by simp [On]) (by simp [On]) (by simp [On]) (hX.on (by simp [On])), bind_ok]
      exact Sim.ok ⟨rfl, rfl, fun _ => hq⟩

end

end Hibit.MAlias
