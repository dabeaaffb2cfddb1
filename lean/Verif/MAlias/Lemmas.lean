import Verif.MAlias.Model
import Verif.Typed.Sim
import Verif.Bits.Lemmas
/-!
# The borrows of a selection, computed
-/
namespace Hibit.MAlias
open Hibit
open Hibit.Typed (Rel)

/-! ## Single accesses -/

theorem acc_head {w : Acc} {t : Nat} {i : Item} (s : List Item) (h : i.grants w t = true) :
    access w (some t) (i :: s) = some (i :: s) := by
  simp [access, h]

theorem acc_write_skip {t : Nat} {i : Item} (s : List Item) (h : i.grants .write t = false) :
    access .write (some t) (i :: s) = access .write (some t) s := by
  simp [access, h]

theorem acc_read_skip {t : Nat} {i : Item} (s : List Item) (h : i.grants .read t = false) (hp : i.perm = .uniq) :
    access .read (some t) (i :: s) = access .read (some t) s := by
  simp [access, h, hp]

theorem acc_nil (w : Acc) (t : Nat) : access w (some t) [] = none := rfl

/-! ## States during a selection of level `n` of `L` -/

/-- `A` on the selected level's list, `P` on the previous one, `B` on the others, `X` on `cursors`. -/
def lay (z0 : St) (L n : Nat) (A P B X : List Item) (nx : Nat) : St :=
  ⟨fun pl => match pl with
    | .cursors => X
    | .lvl k => if k < L then (if k = n - 1 then A else if k = n - 2 then P else B) else z0.stk (.lvl k), nx⟩

section
variable {z0 : St} {L n nx : Nat} {A P B X A' P' B' X' : List Item} {pm : Perm} {t : Tag}

theorem mem_slice {pl : Place} : pl ∈ slice L ↔ ∃ k, k < L ∧ pl = .lvl k := by
  unfold slice
  rw [List.mem_map]
  exact ⟨fun ⟨k, hk, e⟩ => ⟨k, List.mem_range.1 hk, e.symm⟩, fun ⟨k, hk, e⟩ => ⟨k, List.mem_range.2 hk, e.symm⟩⟩

theorem retag_whole (z : St) : retag .uniq none (whole L) z = .ok (some z.next,
    lay z L n [⟨.uniq, z.next⟩] [⟨.uniq, z.next⟩] [⟨.uniq, z.next⟩] [⟨.uniq, z.next⟩] (z.next + 1)) := by
  unfold retag
  rw [if_pos (fun pl _ => by simp [access])]
  congr 2
  unfold lay
  congr 1
  funext pl
  cases pl with
  | cursors => simp [whole, access, Perm.acc]
  | lvl k =>
    by_cases h : k < L
    · have : (Place.lvl k) ∈ whole L := List.mem_cons_of_mem _ (mem_slice.2 ⟨k, h, rfl⟩)
      simp [this, h, access, Perm.acc]
    · have : (Place.lvl k) ∉ whole L := by
        intro hm
        rcases List.mem_cons.1 hm with hm | hm
        · cases hm
        · obtain ⟨j, hj, e⟩ := mem_slice.1 hm
          cases e
          exact h hj
      simp [this, h]

theorem retag_slice (hA : access pm.acc t A = some A') (hP : access pm.acc t P = some P')
    (hB : access pm.acc t B = some B') : retag pm t (slice L) (lay z0 L n A P B X nx) =
      .ok (some nx, lay z0 L n (⟨pm, nx⟩ :: A') (⟨pm, nx⟩ :: P') (⟨pm, nx⟩ :: B') X (nx + 1)) := by
  have key : ∀ k, k < L → access pm.acc t ((lay z0 L n A P B X nx).stk (.lvl k)) =
      some (if k = n - 1 then A' else if k = n - 2 then P' else B') := by
    intro k hk
    simp only [lay, if_pos hk]
    split
    · exact hA
    · split
      · exact hP
      · exact hB
  unfold retag
  rw [if_pos]
  · congr 2
    unfold lay
    congr 1
    funext pl
    cases pl with
    | cursors =>
      have : Place.cursors ∉ slice L := by
        intro hm
        obtain ⟨j, -, e⟩ := mem_slice.1 hm
        cases e
      simp [this]
    | lvl k =>
      by_cases h : k < L
      · have hm : (Place.lvl k) ∈ slice L := mem_slice.2 ⟨k, h, rfl⟩
        simp only [hm, if_true, h]
        split
        · rw [hA]; rfl
        · split
          · rw [hP]; rfl
          · rw [hB]; rfl
      · have hm : (Place.lvl k) ∉ slice L := by
          intro hm
          obtain ⟨j, hj, e⟩ := mem_slice.1 hm
          cases e
          exact h hj
        simp only [hm, if_false, h]
  · intro pl hpl
    obtain ⟨k, hk, rfl⟩ := mem_slice.1 hpl
    rw [key k hk]
    rfl

theorem retag_lvl (hn : n - 1 < L) (hA : access pm.acc t A = some A') :
    retag pm t [.lvl (n - 1)] (lay z0 L n A P B X nx) = .ok (some nx, lay z0 L n (⟨pm, nx⟩ :: A') P B X (nx + 1)) := by
  unfold retag
  have e : (lay z0 L n A P B X nx).stk (.lvl (n - 1)) = A := by simp [lay, hn]
  rw [if_pos]
  · congr 2
    unfold lay
    congr 1
    funext pl
    cases pl with
    | cursors => simp
    | lvl k =>
      by_cases h : k = n - 1
      · subst h
        simp [hn, hA]
      · simp [h]
  · intro pl hpl
    rw [List.mem_singleton.1 hpl, e, hA]
    rfl

theorem retag_lvl_ub (hn : n - 1 < L) (hA : access pm.acc t A = none) :
    retag pm t [.lvl (n - 1)] (lay z0 L n A P B X nx) = .error .ub := by
  unfold retag
  have e : (lay z0 L n A P B X nx).stk (.lvl (n - 1)) = A := by simp [lay, hn]
  rw [if_neg]
  intro h
  have := h (.lvl (n - 1)) (by simp)
  rw [e, hA] at this
  cases this

theorem retag_prev (h2 : 2 ≤ n) (hn : n - 1 < L) (hP : access pm.acc t P = some P') :
    retag pm t [.lvl (n - 2)] (lay z0 L n A P B X nx) = .ok (some nx, lay z0 L n A (⟨pm, nx⟩ :: P') B X (nx + 1)) := by
  have h3 : n - 2 ≠ n - 1 := by omega
  have h4 : n - 2 < L := by omega
  unfold retag
  have e : (lay z0 L n A P B X nx).stk (.lvl (n - 2)) = P := by simp [lay, h4, h3]
  rw [if_pos]
  · congr 2
    unfold lay
    congr 1
    funext pl
    cases pl with
    | cursors => simp
    | lvl k =>
      by_cases h : k = n - 2
      · subst h
        simp [h4, h3, hP]
      · simp [h]
  · intro pl hpl
    rw [List.mem_singleton.1 hpl, e, hP]
    rfl

theorem retag_cur (hX : access pm.acc t X = some X') :
    retag pm t [.cursors] (lay z0 L n A P B X nx) = .ok (some nx, lay z0 L n A P B (⟨pm, nx⟩ :: X') (nx + 1)) := by
  unfold retag
  rw [if_pos]
  · congr 2
    unfold lay
    congr 1
    funext pl
    cases pl with
    | cursors => simp [hX]
    | lvl k => simp
  · intro pl hpl
    rw [List.mem_singleton.1 hpl]
    simp [lay, hX]

theorem touch_lvl (hn : n - 1 < L) {w : Acc} (hA : access w t A = some A') :
    touch w t (.lvl (n - 1)) (lay z0 L n A P B X nx) = .ok (lay z0 L n A' P B X nx) := by
  unfold touch
  have e : (lay z0 L n A P B X nx).stk (.lvl (n - 1)) = A := by simp [lay, hn]
  rw [e, hA]
  simp only
  congr 1
  unfold lay
  congr 1
  funext pl
  cases pl with
  | cursors => simp
  | lvl k =>
    by_cases h : k = n - 1
    · subst h; simp [hn]
    · simp [h]

theorem touch_prev (h2 : 2 ≤ n) (hn : n - 1 < L) {w : Acc} (hP : access w t P = some P') :
    touch w t (.lvl (n - 2)) (lay z0 L n A P B X nx) = .ok (lay z0 L n A P' B X nx) := by
  have h3 : n - 2 ≠ n - 1 := by omega
  have h4 : n - 2 < L := by omega
  unfold touch
  have e : (lay z0 L n A P B X nx).stk (.lvl (n - 2)) = P := by simp [lay, h4, h3]
  rw [e, hP]
  simp only
  congr 1
  unfold lay
  congr 1
  funext pl
  cases pl with
  | cursors => simp
  | lvl k =>
    by_cases h : k = n - 2
    · subst h; simp [h4, h3]
    · simp [h]

theorem touch_cur {w : Acc} (hX : access w t X = some X') :
    touch w t .cursors (lay z0 L n A P B X nx) = .ok (lay z0 L n A P B X' nx) := by
  unfold touch
  have e : (lay z0 L n A P B X nx).stk .cursors = X := rfl
  rw [e, hX]
  simp only
  congr 1
  unfold lay
  congr 1
  funext pl
  cases pl with
  | cursors => simp
  | lvl k => simp

/-- The tag `s` is on a stack. -/
def On (s : Nat) (l : List Item) : Prop := l.any (fun i => some i.tag == some s) = true

theorem leave_slice {s : Nat} (hA : On s A) (hP : On s P) (hB : On s B) :
    leave (some s) (slice L) (lay z0 L n A P B X nx) = .ok () := by
  unfold leave
  rw [if_pos]
  intro pl hpl
  obtain ⟨k, hk, rfl⟩ := mem_slice.1 hpl
  simp only [lay, if_pos hk]
  split
  · exact hA
  · split
    · exact hP
    · exact hB

theorem leave_whole {s : Nat} (hA : On s A) (hP : On s P) (hB : On s B) (hX : On s X) :
    leave (some s) (whole L) (lay z0 L n A P B X nx) = .ok () := by
  unfold leave
  rw [if_pos]
  intro pl hpl
  rcases List.mem_cons.1 hpl with rfl | hpl
  · exact hX
  · obtain ⟨k, hk, rfl⟩ := mem_slice.1 hpl
    simp only [lay, if_pos hk]
    split
    · exact hA
    · split
      · exact hP
      · exact hB

theorem grants_self (pm : Perm) (k : Nat) : (⟨pm, k⟩ : Item).grants pm.acc k = true := by
  cases pm <;> simp [Item.grants, Perm.acc]

theorem method_cur (hp : pm ≠ .raw) (hX : access pm.acc t X = some X') :
    method pm t .cursors (lay z0 L n A P B X nx) = .ok (lay z0 L n A P B (⟨pm, nx⟩ :: X') (nx + 1)) := by
  unfold method
  rw [retag_cur hX, bind_ok]
  simp only
  rw [touch_cur (acc_head _ (grants_self pm nx)), bind_ok]
  have : leave (some nx) [.cursors] (lay z0 L n A P B (⟨pm, nx⟩ :: X') (nx + 1)) = .ok () := by
    unfold leave
    rw [if_pos]
    intro pl hpl
    rw [List.mem_singleton.1 hpl]
    simp [lay]
  rw [this]
  rfl

theorem method_lvl (hn : n - 1 < L) (hA : access pm.acc t A = some A') :
    method pm t (.lvl (n - 1)) (lay z0 L n A P B X nx) = .ok (lay z0 L n (⟨pm, nx⟩ :: A') P B X (nx + 1)) := by
  unfold method
  rw [retag_lvl hn hA, bind_ok]
  simp only
  rw [touch_lvl hn (acc_head _ (grants_self pm nx)), bind_ok]
  have : leave (some nx) [.lvl (n - 1)] (lay z0 L n (⟨pm, nx⟩ :: A') P B X (nx + 1)) = .ok () := by
    unfold leave
    rw [if_pos]
    intro pl hpl
    rw [List.mem_singleton.1 hpl]
    simp [lay, hn]
  rw [this]
  rfl

theorem method_lvl_ub (hn : n - 1 < L) (hA : access pm.acc t A = none) :
    method pm t (.lvl (n - 1)) (lay z0 L n A P B X nx) = .error .ub := by
  unfold method
  rw [retag_lvl_ub hn hA]
  rfl

end

end Hibit.MAlias
