import Verif.Dense.History
import Verif.Sparse.Groups
/-!
# DenseTree: which nodes are allocated

`Sparse.groups 64 D n M` counts the aligned ranges of `64^(D-n)` keys that hold a stored key.
-/
namespace Hibit.Dense
open Hibit

variable {α : Type} {ex : List Nat → Prop} {D : Nat} {t : DT α} {M : Nat → Option α}
  {loc K : List Nat → Option Nat}

/-- A stored key makes all its prefixes live. -/
theorem DS.live_of_key (S : DS ex D t M loc K) {k n : Nat} (hk : k < 64 ^ D) (hn : n < D)
    (hs : (M k).isSome = true) : ∃ a, loc ((path 64 D k).take n) = some a := by
  have hv : ValidPath 64 (path 64 D k) := path_lt D hk
  have hl := path_length 64 D k
  have hK : (K (path 64 D k)).isSome = true := by
    rw [← S.some_iff hv hl, unpath_path _ _ _ hk]; exact hs
  obtain ⟨d, hd⟩ := Option.isSome_iff_exists.1 hK
  rcases eq_nil_or_append (path 64 D k) with e | ⟨q, i, e⟩
  · rw [e] at hl; simp at hl; omega
  · rw [e] at hd hl
    simp at hl
    obtain ⟨b, hb⟩ := S.tree.klive _ _ _ hd
    rw [e, List.take_append_of_le_length (by omega)]
    exact S.tree.take_live _ rfl hb n

/-- Below every live node but the root a key is stored (when exactness is claimed). -/
theorem DS.key_of_live (S : DS ex D t M loc K) (hex : ∀ p, ex p) : ∀ (m : Nat) (p : List Nat) (a : Nat),
    p.length + m = D → p ≠ [] → loc p = some a →
    ∃ k, k < 64 ^ D ∧ (M k).isSome = true ∧ (path 64 D k).take p.length = p := by
  intro m
  induction m with
  | zero =>
    intro p a hm _ ha
    have := (S.tree.valid _ _ ha).2
    omega
  | succ m ih =>
    intro p a hm hne ha
    obtain ⟨hv, hl⟩ := S.tree.valid _ _ ha
    obtain ⟨i, hi, hF⟩ := S.exact p a (hex p) ha hne
    by_cases hb : p.length + 1 < D
    · rw [cellsOf_branch hb] at hF
      cases e : loc (p ++ [i]) with
      | none => rw [e] at hF; simp at hF
      | some b =>
        obtain ⟨k, k1, k2, k3⟩ := ih (p ++ [i]) b (by simp; omega) (by simp) e
        refine ⟨k, k1, k2, ?_⟩
        have := congrArg (List.take p.length) k3
        rw [List.take_take, List.take_append_of_le_length (Nat.le_refl _), List.take_length] at this
        rw [Nat.min_eq_left (by simp)] at this
        exact this
    · have hb' : p.length + 1 = D := by omega
      rw [cellsOf_term hb'] at hF
      cases e : K (p ++ [i]) with
      | none => rw [e] at hF; simp at hF
      | some d =>
        have hvi := ValidPath.append hv hi
        have hli : (p ++ [i]).length = D := by simpa using hb'
        have hs : (M (unpath 64 (p ++ [i]))).isSome = true := by
          rw [S.some_iff hvi hli, e]; rfl
        have hlt := unpath_lt hvi
        have hpu := path_unpath hvi
        rw [hli] at hlt hpu
        refine ⟨_, hlt, hs, ?_⟩
        rw [hpu, List.take_append_of_le_length (Nat.le_refl _), List.take_length]

theorem DS.live_iff (S : DS ex D t M loc K) (hex : ∀ p, ex p) {n x : Nat} (h1 : 1 ≤ n) (hn : n < D)
    (hx : x < 64 ^ n) : (loc (path 64 n x)).isSome =
      ((keysOf (64 ^ D) M).any fun k => k / 64 ^ (D - n) == x) := by
  rw [Bool.eq_iff_iff, Sparse.groups_mem]
  constructor
  · intro h
    obtain ⟨a, ha⟩ := Option.isSome_iff_exists.1 h
    obtain ⟨k, k1, k2, k3⟩ := S.key_of_live hex (D - n) _ a (by rw [path_length]; omega)
      (Sparse.path_ne_nil h1) ha
    refine ⟨k, k1, k2, ?_⟩
    rw [path_length, Sparse.take_path k1 (by omega)] at k3
    exact path_injOn (Sparse.div_lt_pow k1 (by omega)) hx k3
  · rintro ⟨k, k1, k2, k3⟩
    obtain ⟨a, ha⟩ := S.live_of_key k1 hn k2
    rw [Sparse.take_path k1 (by omega), k3] at ha
    rw [ha]; rfl

theorem filterMap_length_filter {β γ : Type} (f : β → Option γ) (l : List β) :
    (l.filterMap f).length = (l.filter fun x => (f x).isSome).length := by
  induction l with
  | nil => rfl
  | cons x l ih =>
    cases e : f x <;> simp [List.filterMap_cons, List.filter_cons, e, ih]

/-- All paths of nodes of a depth-`D` tree. -/
def allPaths (D : Nat) : List (List Nat) :=
  (List.range D).flatMap fun n => (List.range (64 ^ n)).map (path 64 n)

theorem mem_allPaths {D : Nat} {p : List Nat} :
    p ∈ allPaths D ↔ p.length < D ∧ ValidPath 64 p := by
  unfold allPaths
  simp only [List.mem_flatMap, List.mem_range, List.mem_map]
  constructor
  · rintro ⟨n, h1, x, h2, rfl⟩
    exact ⟨by rw [path_length]; exact h1, path_lt n h2⟩
  · rintro ⟨h1, h2⟩
    exact ⟨p.length, h1, unpath 64 p, unpath_lt h2, path_unpath h2⟩

theorem allPaths_succ (D : Nat) :
    allPaths (D + 1) = allPaths D ++ (List.range (64 ^ D)).map (path 64 D) := by
  unfold allPaths
  rw [List.range_succ, List.flatMap_append]; simp

theorem nodup_map_inj {β γ : Type} {f : β → γ} {l : List β} (hl : l.Nodup)
    (h : ∀ a ∈ l, ∀ b ∈ l, f a = f b → a = b) : (l.map f).Nodup := by
  induction l with
  | nil => simp
  | cons a l ih =>
    rw [List.nodup_cons] at hl
    rw [List.map_cons, List.nodup_cons]
    refine ⟨?_, ih hl.2 (fun x hx y hy => h x (by simp [hx]) y (by simp [hy]))⟩
    intro hm
    obtain ⟨b, hb, e⟩ := List.mem_map.1 hm
    exact hl.1 (h b (by simp [hb]) a (by simp) e ▸ hb)

theorem nodup_filterMap_inj {β γ : Type} {f : β → Option γ} {l : List β} (hl : l.Nodup)
    (h : ∀ a b c, f a = some c → f b = some c → a = b) : (l.filterMap f).Nodup := by
  induction l with
  | nil => simp
  | cons a l ih =>
    rw [List.nodup_cons] at hl
    cases e : f a with
    | none => rw [List.filterMap_cons_none e]; exact ih hl.2
    | some c =>
      rw [List.filterMap_cons_some e, List.nodup_cons]
      refine ⟨?_, ih hl.2⟩
      intro hm
      obtain ⟨b, hb, e'⟩ := List.mem_filterMap.1 hm
      exact hl.1 (h a b c e e' ▸ hb)

theorem allPaths_nodup (D : Nat) : (allPaths D).Nodup := by
  induction D with
  | zero => exact List.nodup_nil
  | succ D ih =>
    rw [allPaths_succ, List.nodup_append]
    refine ⟨ih, nodup_map_inj List.nodup_range ?_, ?_⟩
    · intro a ha b hb e
      exact path_injOn (List.mem_range.1 ha) (List.mem_range.1 hb) e
    · intro p hp q hq e
      have := (mem_allPaths.1 hp).1
      obtain ⟨x, _, rfl⟩ := List.mem_map.1 hq
      rw [e, path_length] at this
      omega

theorem DS.count (S : DS ex D t M loc K) (hex : ∀ p, ex p) : ∀ n, n + 1 ≤ D →
    ((allPaths (n + 1)).filterMap loc).length =
      1 + ((List.range n).map fun m => Sparse.groups 64 D (m + 1) M).sum := by
  intro n
  induction n with
  | zero =>
    intro _
    obtain ⟨a, ha, -⟩ := S.tree.root
    have : allPaths 1 = [[]] := rfl
    rw [this]
    simp [ha]
  | succ n ih =>
    intro hn
    rw [allPaths_succ, List.filterMap_append, List.length_append, ih (by omega), List.range_succ,
      List.map_append, List.sum_append, List.filterMap_map, filterMap_length_filter]
    simp only [List.map_cons, List.map_nil, List.sum_cons, List.sum_nil, Nat.add_zero]
    have : ((List.range (64 ^ (n + 1))).filter fun x => ((loc ∘ path 64 (n + 1)) x).isSome).length =
        Sparse.groups 64 D (n + 1) M := by
      unfold Sparse.groups
      congr 1
      apply List.filter_congr
      intro x hx
      exact S.live_iff hex (by omega) (by omega) (List.mem_range.1 hx)
    omega

/-- The allocated nodes, without repetition: the root and one per aligned key range holding a key;
none has more than 128 cells. -/
theorem DRep.footprint (R : DRep ex D t M) (h1 : 1 ≤ D) (hex : ∀ p, ex p) :
    ∃ as : List Nat, as.Nodup ∧ (∀ a, a ∈ as ↔ (t.heap.node a).isSome = true) ∧
      as.length = 1 + ((List.range (D - 1)).map fun m => Sparse.groups 64 D (m + 1) M).sum ∧
      ∀ a n, t.heap.node a = some n → n.len ≤ n.cap ∧ n.cells.length = n.cap ∧ n.cap ≤ 128 := by
  obtain ⟨loc, K, S⟩ := R
  refine ⟨(allPaths D).filterMap loc, ?_, ?_, ?_, ?_⟩
  · exact nodup_filterMap_inj (allPaths_nodup D) S.tree.rep.inj
  · intro a
    rw [List.mem_filterMap]
    constructor
    · rintro ⟨p, _, ha⟩
      obtain ⟨n, hn, -⟩ := S.tree.rep.node p a ha
      rw [hn]; rfl
    · intro h
      obtain ⟨n, hn⟩ := Option.isSome_iff_exists.1 h
      obtain ⟨p, hp⟩ := S.tree.rep.cover a n hn
      obtain ⟨v1, v2⟩ := S.tree.valid p a hp
      exact ⟨p, mem_allPaths.2 ⟨v2, v1⟩, hp⟩
  · have := S.count hex (D - 1) (by omega)
    rw [show D - 1 + 1 = D by omega] at this
    exact this
  · intro a n hn
    obtain ⟨p, hp⟩ := S.tree.rep.cover a n hn
    obtain ⟨n', h', -, N⟩ := S.tree.rep.node p a hp
    rw [hn] at h'
    cases h'
    exact ⟨N.le, N.cap_eq, N.cap_le⟩

end Hibit.Dense
