import Verif.Basic
/-!
# Specification: finite maps

A container is specified by the function `Nat → Option α` giving the value stored at each key.
Keys are below `n` (the size of the index range).
-/
namespace Hibit

/-- `M` with the entry of key `k` replaced. -/
def put {α : Type} (M : Nat → Option α) (k : Nat) (o : Option α) : Nat → Option α :=
  fun x => if x = k then o else M x

/-- The stored keys, ascending. -/
def keysOf {α : Type} (n : Nat) (M : Nat → Option α) : List Nat :=
  (List.range n).filter fun k => (M k).isSome

/-- The stored values, in key order. -/
def valuesOf {α : Type} (n : Nat) (M : Nat → Option α) : List α := (List.range n).filterMap M

/-- Number of stored elements. -/
def card {α : Type} (n : Nat) (M : Nat → Option α) : Nat := (keysOf n M).length

theorem keysOf_nodup {α : Type} (n : Nat) (M : Nat → Option α) : (keysOf n M).Nodup :=
  (List.nodup_range).filter _

theorem mem_keysOf {α : Type} {n : Nat} {M : Nat → Option α} {k : Nat} :
    k ∈ keysOf n M ↔ k < n ∧ (M k).isSome := by
  simp [keysOf]

theorem card_le {α : Type} (n : Nat) (M : Nat → Option α) : card n M ≤ n := by
  have := List.length_filter_le (fun k => (M k).isSome) (List.range n)
  simpa [card, keysOf] using this

/-- Any enumeration of the content has the values of the map, up to order. -/
theorem values_perm {α : Type} {n : Nat} {M : Nat → Option α} {ks : List Nat} {vs : List α}
    (hl : ks.length = vs.length) (hnd : ks.Nodup)
    (h : ∀ k v, (∃ j : Nat, ks[j]? = some k ∧ vs[j]? = some v) ↔ k < n ∧ M k = some v) :
    List.Perm ks (keysOf n M) ∧ List.Perm vs (valuesOf n M) := by
  have hmap : ks.map M = vs.map some := by
    apply List.ext_getElem?
    intro j
    rw [List.getElem?_map, List.getElem?_map]
    cases hk : ks[j]? with
    | none =>
      have : vs[j]? = none := by
        rw [List.getElem?_eq_none_iff] at hk ⊢; omega
      rw [this]; rfl
    | some k =>
      obtain ⟨v, hv⟩ : ∃ v, vs[j]? = some v := by
        obtain ⟨hj, _⟩ := List.getElem?_eq_some_iff.1 hk
        exact ⟨_, List.getElem?_eq_getElem (by omega)⟩
      rw [hv]
      simp only [Option.map_some]
      rw [((h k v).1 ⟨j, hk, hv⟩).2]
  have hvs : vs = ks.filterMap M := by
    have : (ks.map M).filterMap id = (vs.map some).filterMap id := by rw [hmap]
    simp only [List.filterMap_map] at this
    have e1 : ks.filterMap (id ∘ M) = ks.filterMap M := rfl
    have e2 : vs.filterMap (id ∘ some) = vs := by
      have : (id ∘ some : α → Option α) = some := rfl
      rw [this]
      simp
    rw [e1, e2] at this
    exact this.symm
  have hperm : List.Perm ks (keysOf n M) := by
    rw [List.perm_ext_iff_of_nodup hnd (keysOf_nodup n M)]
    intro k
    rw [mem_keysOf]
    constructor
    · intro hk
      obtain ⟨j, hj, rfl⟩ := List.getElem_of_mem hk
      have := (h ks[j] vs[j]).1 ⟨j, List.getElem?_eq_getElem hj, List.getElem?_eq_getElem (by omega)⟩
      rw [this.2]; exact ⟨this.1, rfl⟩
    · rintro ⟨hk, hs⟩
      obtain ⟨v, hv⟩ := Option.isSome_iff_exists.1 hs
      obtain ⟨j, hj, _⟩ := (h k v).2 ⟨hk, hv⟩
      exact List.mem_of_getElem? hj
  refine ⟨hperm, ?_⟩
  rw [hvs]
  have h2 := hperm.filterMap M
  refine h2.trans ?_
  have : (keysOf n M).filterMap M = valuesOf n M := by
    unfold keysOf valuesOf
    rw [List.filterMap_filter]
    congr 1
    funext k
    cases M k <;> rfl
  rw [this]

theorem range_eq_split {n k : Nat} (h : k < n) : List.range n =
    List.range k ++ k :: (List.range (n - k - 1)).map (· + (k + 1)) := by
  have : n = k + (1 + (n - k - 1)) := by omega
  conv => lhs; rw [this]
  rw [List.range_add, List.range_add]
  simp only [List.map_append, List.map_map]
  congr 1
  simp only [List.range_one, List.map_cons, List.map_nil, List.singleton_append, Nat.add_zero]
  congr 1
  apply List.map_congr_left
  intro x _; simp; omega

theorem filterMap_congr_mem {α β : Type} {l : List α} {f g : α → Option β}
    (h : ∀ x ∈ l, f x = g x) : l.filterMap f = l.filterMap g := by
  induction l with
  | nil => rfl
  | cons a l ih =>
    simp only [List.filterMap_cons, h a (by simp), ih (fun b hb => h b (by simp [hb]))]

theorem valuesOf_split {α : Type} {n k : Nat} (h : k < n) (M : Nat → Option α) :
    ∃ A B, (∀ o, valuesOf n (put M k o) = A ++ (o.toList ++ B)) ∧
      valuesOf n M = A ++ ((M k).toList ++ B) := by
  refine ⟨(List.range k).filterMap M, ((List.range (n - k - 1)).map (· + (k + 1))).filterMap M, ?_, ?_⟩
  · intro o
    unfold valuesOf
    rw [range_eq_split h, List.filterMap_append, List.filterMap_cons]
    have e1 : (List.range k).filterMap (put M k o) = (List.range k).filterMap M := by
      apply filterMap_congr_mem
      intro x hx; simp at hx; simp [put, show x ≠ k by omega]
    have e2 : ((List.range (n - k - 1)).map (· + (k + 1))).filterMap (put M k o) =
        ((List.range (n - k - 1)).map (· + (k + 1))).filterMap M := by
      apply filterMap_congr_mem
      intro x hx
      simp only [List.mem_map] at hx
      obtain ⟨y, _, rfl⟩ := hx
      simp [put, show ¬ y + (k + 1) = k by omega]
    rw [e1, e2]
    cases o <;> simp [put]
  · unfold valuesOf
    rw [range_eq_split h, List.filterMap_append, List.filterMap_cons]
    cases M k <;> simp

/-- Storing a value: the old one (if any) is what leaves the map. -/
theorem valuesOf_put {α : Type} {n k : Nat} (h : k < n) (M : Nat → Option α) (o : Option α) :
    List.Perm (valuesOf n (put M k o) ++ (M k).toList) (valuesOf n M ++ o.toList) := by
  obtain ⟨A, B, h1, h2⟩ := valuesOf_split h M
  rw [h1 o, h2]
  simp only [List.append_assoc]
  refine List.Perm.append_left A ?_
  refine (List.perm_append_comm (l₁ := o.toList) (l₂ := B ++ (M k).toList)).trans ?_
  simp only [List.append_assoc]
  refine (List.perm_append_comm_assoc B (M k).toList o.toList)

theorem card_put_none {α : Type} {n k : Nat} (hk : k < n) {M : Nat → Option α} (h : M k = none) (v : α) :
    card n (put M k (some v)) = card n M + 1 := by
  have hl : ∀ M : Nat → Option α, card n M = (valuesOf n M).length := by
    intro M
    unfold card keysOf valuesOf
    rw [List.length_filterMap_eq_countP, List.countP_eq_length_filter]
  rw [hl, hl]
  have := (valuesOf_put hk M (some v)).length_eq
  rw [h] at this
  simpa using this

theorem card_eq_values {α : Type} (n : Nat) (M : Nat → Option α) :
    card n M = (valuesOf n M).length := by
  unfold card keysOf valuesOf
  rw [List.length_filterMap_eq_countP, List.countP_eq_length_filter]

theorem card_put_le {α : Type} {n k : Nat} (hk : k < n) (M : Nat → Option α) (o : Option α) :
    card n (put M k o) ≤ card n M + 1 := by
  rw [card_eq_values, card_eq_values]
  have := (valuesOf_put hk M o).length_eq
  simp only [List.length_append] at this
  have h1 : o.toList.length ≤ 1 := by cases o <;> simp
  omega

theorem card_map {α : Type} (n : Nat) (M : Nat → Option α) (g : Nat → α → α) :
    card n (fun k => (M k).map (g k)) = card n M := by
  unfold card keysOf
  simp

theorem card_empty {α : Type} (n : Nat) : card n (fun _ => none : Nat → Option α) = 0 := by
  unfold card keysOf
  rw [List.filter_eq_nil_iff.2 (by simp)]; rfl

end Hibit
