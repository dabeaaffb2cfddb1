import Verif.Basic
/-!
# Order of the entries of `key_values()`

Specification: the slices returned by `key_values()` form a list of `(key, value)` entries. Writing a
present key keeps its position, writing a new key appends, removing a key moves the last entry to
its position.
-/
namespace Hibit

variable {α : Type}

/-- Write `f old` at key `k` (`old = none` if the key is new). -/
def upsert (L : List (Nat × α)) (k : Nat) (f : Option α → α) : List (Nat × α) :=
  if L.any (fun e => e.1 == k) then L.map fun e => if e.1 = k then (e.1, f (some e.2)) else e
  else L ++ [(k, f none)]

/-- Remove key `k`, filling its position with the last entry. -/
def swapRemoveKey (L : List (Nat × α)) (k : Nat) : List (Nat × α) :=
  match L.findIdx? (fun e => e.1 == k), L.getLast? with
  | some d, some z => (L.set d z).dropLast
  | _, _ => L

/-- The two vectors, each with its dummy element 0, hold the entries `L`. -/
structure Kv (k0 : Nat) (d0 : Option α) (keys : List Nat) (data : List (Option α))
    (L : List (Nat × α)) : Prop where
  keys : keys = k0 :: L.map (·.1)
  data : data = d0 :: L.map fun e => some e.2
  nodup : (L.map (·.1)).Nodup

section
variable {k0 : Nat} {d0 : Option α} {keys : List Nat} {data : List (Option α)} {L : List (Nat × α)}
  {k : Nat}

theorem any_key_iff : L.any (fun e => e.1 == k) = true ↔ k ∈ L.map (·.1) := by
  simp only [List.any_eq_true, List.mem_map, beq_iff_eq]

theorem entry_unique (h : (L.map (·.1)).Nodup) {i j : Nat} {a b : α} (hi : L[i]? = some (k, a))
    (hj : L[j]? = some (k, b)) : i = j := by
  obtain ⟨li, -⟩ := List.getElem?_eq_some_iff.1 hi
  refine (List.getElem?_inj (l := L.map (·.1)) (by simpa using li) h).1 ?_
  simp [hi, hj]

theorem upsert_set (h : (L.map (·.1)).Nodup) {j : Nat} {a : α} (hj : L[j]? = some (k, a))
    (f : Option α → α) : upsert L k f = L.set j (k, f (some a)) := by
  obtain ⟨lj, -⟩ := List.getElem?_eq_some_iff.1 hj
  unfold upsert
  rw [if_pos (any_key_iff.2 (List.mem_map.2 ⟨_, List.mem_of_getElem? hj, rfl⟩))]
  apply List.ext_getElem?
  intro n
  rw [List.getElem?_map, List.getElem?_set]
  by_cases e : j = n
  · subst e
    rw [hj, if_pos rfl, if_pos lj]; simp
  · rw [if_neg e]
    cases hn : L[n]? with
    | none => rfl
    | some x =>
      obtain ⟨k', b⟩ := x
      simp only [Option.map_some]
      rw [if_neg]
      rintro rfl
      exact e (entry_unique h hj hn)

theorem map_fst_set {j : Nat} {a b : α} (hj : L[j]? = some (k, a)) :
    (L.set j (k, b)).map (·.1) = L.map (·.1) := by
  rw [List.map_set]
  apply List.ext_getElem?
  intro n
  rw [List.getElem?_set]
  by_cases e : j = n
  · subst e
    obtain ⟨lj, -⟩ := List.getElem?_eq_some_iff.1 hj
    rw [if_pos rfl, if_pos (by simpa using lj), List.getElem?_map, hj]; rfl
  · rw [if_neg e]

theorem Kv.entry (H : Kv k0 d0 keys data L) {i : Nat} (hi : 1 ≤ i) {a : α}
    (hk : keys[i]? = some k) (hd : data[i]? = some (some a)) : L[i - 1]? = some (k, a) := by
  obtain ⟨i, rfl⟩ : ∃ e, i = e + 1 := ⟨i - 1, by omega⟩
  rw [H.keys, List.getElem?_cons_succ, List.getElem?_map] at hk
  rw [H.data, List.getElem?_cons_succ, List.getElem?_map] at hd
  cases h : L[i]? with
  | none => rw [h] at hk; cases hk
  | some e =>
    rw [h] at hk hd
    simp only [Option.map_some, Option.some.injEq] at hk hd
    rw [Nat.add_sub_cancel, h, ← hk, ← hd]

theorem Kv.absent (H : Kv k0 d0 keys data L) {i : Nat} (hi : 1 ≤ i) (hd : keys[i]? = some k)  :
    k ∈ L.map (·.1) := by
  obtain ⟨i, rfl⟩ : ∃ e, i = e + 1 := ⟨i - 1, by omega⟩
  rw [H.keys, List.getElem?_cons_succ] at hd
  exact List.mem_of_getElem? hd

/-- Overwriting the value of a present key. -/
theorem Kv.set (H : Kv k0 d0 keys data L) {i : Nat} (hi : 1 ≤ i) {a : α}
    (hk : keys[i]? = some k) (hd : data[i]? = some (some a)) (f : Option α → α) :
    Kv k0 d0 keys (data.set i (some (f (some a)))) (upsert L k f) := by
  have he := H.entry hi hk hd
  rw [upsert_set H.nodup he]
  refine ⟨?_, ?_, ?_⟩
  · rw [map_fst_set he]; exact H.keys
  · obtain ⟨i, rfl⟩ : ∃ e, i = e + 1 := ⟨i - 1, by omega⟩
    rw [H.data, List.set_cons_succ, List.map_set, Nat.add_sub_cancel]
  · rw [map_fst_set he]; exact H.nodup

/-- Appending a new key. -/
theorem Kv.push (H : Kv k0 d0 keys data L) (hn : ((keys ++ [k]).drop 1).Nodup) (f : Option α → α) :
    Kv k0 d0 (keys ++ [k]) (data ++ [some (f none)]) (upsert L k f) := by
  rw [H.keys] at hn
  simp only [List.cons_append, List.drop_succ_cons, List.drop_zero] at hn
  have hk : k ∉ L.map (·.1) := by
    intro hm
    exact (List.nodup_append.1 hn).2.2 k hm k (by simp) rfl
  unfold upsert
  rw [if_neg (fun h => hk (any_key_iff.1 h))]
  refine ⟨by rw [H.keys]; simp, by rw [H.data]; simp, ?_⟩
  rw [List.map_append]; exact hn

theorem Kv.swapRemove (H : Kv k0 d0 keys data L) {i : Nat} (hi : 1 ≤ i) {a : α} {kl : Nat}
    {dl : Option α} (hk : keys[i]? = some k) (hd : data[i]? = some (some a))
    (hkl : keys.getLast? = some kl) (hdl : data.getLast? = some dl) :
    Kv k0 d0 (keys.set i kl).dropLast (data.set i dl).dropLast (swapRemoveKey L k) := by
  have he := H.entry hi hk hd
  obtain ⟨i, rfl⟩ : ∃ e, i = e + 1 := ⟨i - 1, by omega⟩
  rw [Nat.add_sub_cancel] at he
  obtain ⟨li, hli⟩ := List.getElem?_eq_some_iff.1 he
  have hne : L ≠ [] := by rintro rfl; cases he
  obtain ⟨z, hz⟩ : ∃ z, L.getLast? = some z := ⟨_, List.getLast?_eq_some_getLast hne⟩
  have hfi : L.findIdx? (fun e => e.1 == k) = some i := by
    rw [List.findIdx?_eq_some_iff_getElem]
    refine ⟨li, by rw [hli]; simp, fun j hj hp => ?_⟩
    have hp : L[j].1 = k := by simpa using hp
    have : L[j]? = some (k, L[j].2) := by
      rw [List.getElem?_eq_getElem (by omega), ← hp]
    have := entry_unique H.nodup this he
    omega
  have e : swapRemoveKey L k = (L.set i z).dropLast := by
    unfold swapRemoveKey
    rw [hfi, hz]
  have hkz : kl = z.1 := by
    rw [H.keys, List.getLast?_cons, List.getLast?_map, hz] at hkl
    simpa using hkl.symm
  have hdz : dl = some z.2 := by
    rw [H.data, List.getLast?_cons, List.getLast?_map, hz] at hdl
    simpa using hdl.symm
  rw [e, hkz, hdz]
  have hne' : L.set i z ≠ [] := by simpa using hne
  refine ⟨?_, ?_, ?_⟩
  · rw [H.keys, List.set_cons_succ, List.dropLast_cons_of_ne_nil (by simpa using hne), List.map_dropLast,
      List.map_set]
  · rw [H.data, List.set_cons_succ, List.dropLast_cons_of_ne_nil (by simpa using hne), List.map_dropLast,
      List.map_set]
  · have hnd := H.nodup
    rw [List.map_dropLast, List.map_set]
    have hzl : (L.map (·.1))[L.length - 1]? = some z.1 := by
      rw [List.getElem?_map, ← List.getLast?_eq_getElem?, hz]; rfl
    rw [List.nodup_iff_pairwise_ne, List.pairwise_iff_getElem]
    intro p q hp hq hpq
    simp only [List.length_dropLast, List.length_set, List.length_map] at hp hq
    rw [List.getElem_dropLast, List.getElem_dropLast, List.getElem_set, List.getElem_set]
    have inj : ∀ p q, p < L.length → (L.map (·.1))[p]? = (L.map (·.1))[q]? → p = q := fun p q h1 h2 =>
      (List.getElem?_inj (by simpa using h1) hnd).1 h2
    have ge : ∀ p (h : p < (L.map (·.1)).length), (L.map (·.1))[p]? = some (L.map (·.1))[p] :=
      fun p h => List.getElem?_eq_getElem h
    by_cases e1 : i = p
    · rw [if_pos e1, if_neg (by omega)]
      intro e'
      have := inj q (L.length - 1) (by omega) (by rw [hzl, ge q (by simp; omega), e'])
      omega
    · rw [if_neg e1]
      by_cases e2 : i = q
      · rw [if_pos e2]
        intro e'
        have := inj p (L.length - 1) (by omega) (by rw [hzl, ge p (by simp; omega), e'])
        omega
      · rw [if_neg e2]
        intro e'
        have := inj p q (by omega) (by rw [ge p (by simp; omega), ge q (by simp; omega), e'])
        omega

theorem swapRemoveKey_absent (h : k ∉ L.map (·.1)) : swapRemoveKey L k = L := by
  unfold swapRemoveKey
  have : L.findIdx? (fun e => e.1 == k) = none := by
    rw [List.findIdx?_eq_none_iff]
    intro e he
    have : e.1 ≠ k := by rintro rfl; exact h (List.mem_map.2 ⟨e, he, rfl⟩)
    simpa using this
  rw [this]

theorem upsert_absent {f : Option α → α} (h : k ∉ L.map (·.1)) : upsert L k f = L ++ [(k, f none)] := by
  unfold upsert
  rw [if_neg (fun h' => h (any_key_iff.1 h'))]

theorem Kv.map (H : Kv k0 d0 keys data L) (g : Nat → α → α) :
    Kv k0 d0 keys (data.take 1 ++ List.zipWith (fun k (v : Option α) => v.map (g k)) (keys.drop 1) (data.drop 1))
      (L.map fun e => (e.1, g e.1 e.2)) := by
  refine ⟨?_, ?_, ?_⟩
  · rw [H.keys, List.map_map]; rfl
  · rw [H.keys, H.data]
    simp only [List.take_succ_cons, List.take_zero, List.drop_succ_cons, List.drop_zero, List.cons_append,
      List.nil_append, List.map_map]
    congr 1
    rw [List.zipWith_map_left, List.zipWith_map_right, List.zipWith_self]
    rfl
  · rw [List.map_map]; exact H.nodup

end

end Hibit
