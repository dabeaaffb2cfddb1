import Verif.Sparse.Lawful
/-!
# SparseTree: how many blocks a content needs

`groups W D n M` is the number of aligned ranges of `W^(D-n)` keys holding a stored key: the number
of blocks of level `n` a tree storing `M` needs (for `n = D`: the number of values).
-/
namespace Hibit.Sparse
open Hibit

/-- Number of `x < W^n` such that a stored key `k` has `k / W^(D-n) = x`. -/
def groups {α : Type} (W D n : Nat) (M : Nat → Option α) : Nat :=
  ((List.range (W ^ n)).filter fun x =>
    (keysOf (W ^ D) M).any fun k => k / W ^ (D - n) == x).length

/-- Level `n` (for `n = D`: the value array) of a tree storing `M` needs at most `cap n` entries,
including the reserved entry 0. -/
def Fits {α : Type} (W D : Nat) (cap : Nat → Nat) (M : Nat → Option α) : Prop :=
  ∀ n, 1 ≤ n → n ≤ D → 1 + groups W D n M ≤ cap n

/-- The keys of `M` and the keys in `Ph`. -/
def occ {α : Type} (Ph : List Nat) (M : Nat → Option α) : Nat → Option Unit :=
  fun k => if (M k).isSome ∨ k ∈ Ph then some () else none

theorem groups_mem {α : Type} {W D n x : Nat} {M : Nat → Option α} :
    ((keysOf (W ^ D) M).any fun k => k / W ^ (D - n) == x) = true ↔
      ∃ k, k < W ^ D ∧ (M k).isSome ∧ k / W ^ (D - n) = x := by
  simp only [List.any_eq_true, mem_keysOf, beq_iff_eq, and_assoc]

/-- Coordinates of the range containing `k`. -/
theorem take_path {W D n k : Nat} (hk : k < W ^ D) (hn : n ≤ D) :
    (path W D k).take n = path W n (k / W ^ (D - n)) := by
  have hv : ∀ x ∈ path W D k, x < W := path_lt D hk
  have hv1 : ∀ x ∈ (path W D k).take n, x < W := fun x hx => hv x (List.mem_of_mem_take hx)
  have hv2 : ∀ x ∈ (path W D k).drop n, x < W := fun x hx => hv x (List.mem_of_mem_drop hx)
  have hl1 : ((path W D k).take n).length = n := by simp; omega
  have hl2 : ((path W D k).drop n).length = D - n := by simp
  have e := unpath_append W ((path W D k).take n) ((path W D k).drop n)
  rw [List.take_append_drop, unpath_path W D k hk, hl2] at e
  have hlt := unpath_lt hv2
  rw [hl2] at hlt
  have hq : k / W ^ (D - n) = unpath W ((path W D k).take n) := by
    refine (congrArg (· / W ^ (D - n)) e).trans ?_
    rw [Nat.mul_comm, Nat.mul_add_div (by omega), Nat.div_eq_of_lt hlt, Nat.add_zero]
  rw [hq]
  have := path_unpath hv1
  rw [hl1] at this
  exact this.symm

section
variable {α : Type} {N D : Nat} {cap : Nat → Nat} {dflt : Option α} {Ph : List Nat} {t : ST α}
  {M : Nat → Option α} {B : List Nat → Nat}

theorem occ_isSome (Ph : List Nat) (M : Nat → Option α) (k : Nat) :
    (occ Ph M k).isSome = true ↔ (M k).isSome = true ∨ k ∈ Ph := by
  unfold occ
  split <;> simp_all

theorem groups_congr {β : Type} {W D n : Nat} {M : Nat → Option α} {M' : Nat → Option β}
    (h : ∀ k, k < W ^ D → (M k).isSome = (M' k).isSome) : groups W D n M = groups W D n M' := by
  unfold groups
  congr 1
  apply List.filter_congr
  intro x _
  rw [Bool.eq_iff_iff, groups_mem, groups_mem]
  constructor
  · rintro ⟨k, h1, h2, h3⟩; exact ⟨k, h1, by rw [← h k h1]; exact h2, h3⟩
  · rintro ⟨k, h1, h2, h3⟩; exact ⟨k, h1, by rw [h k h1]; exact h2, h3⟩

/-- Without keys left behind `occ` counts the content only. -/
theorem groups_occ_nil (W D n : Nat) (M : Nat → Option α) :
    groups W D n (occ [] M) = groups W D n M :=
  groups_congr fun k _ => by rw [Bool.eq_iff_iff, occ_isSome]; simp

theorem fits_occ_nil {W D : Nat} {cap : Nat → Nat} {M : Nat → Option α} (h : Fits W D cap M) :
    Fits W D cap (occ [] M) := by
  intro n h1 h2
  rw [groups_occ_nil]; exact h n h1 h2

theorem groups_mono {β : Type} {W D n : Nat} {M : Nat → Option α} {M' : Nat → Option β}
    (h : ∀ k, k < W ^ D → (M k).isSome = true → (M' k).isSome = true) :
    groups W D n M ≤ groups W D n M' := by
  unfold groups
  refine List.Nodup.length_le_of_subset (List.nodup_range.filter _) fun x hx => ?_
  rw [List.mem_filter, groups_mem] at hx ⊢
  obtain ⟨h1, k, h2, h3, h4⟩ := hx
  exact ⟨h1, k, h2, h k h2 h3, h4⟩

theorem path_ne_nil {W n x : Nat} (h1 : 1 ≤ n) : path W n x ≠ [] := by
  intro e
  have := path_length W n x
  rw [e] at this; simp at this; omega

theorem div_lt_pow {W D n k : Nat} (hk : k < W ^ D) (hn : n ≤ D) : k / W ^ (D - n) < W ^ n := by
  have : W ^ D = W ^ n * W ^ (D - n) := by rw [← Nat.pow_add]; congr 1; omega
  rw [this] at hk
  exact Nat.div_lt_of_lt_mul (by rw [Nat.mul_comm]; exact hk)

theorem SS.live_of (S : SS N D cap dflt Ph t M B) {n k : Nat} (h1 : 1 ≤ n) (hn : n ≤ D)
    (hk : k < width N ^ D) (hs : (M k).isSome = true) :
    B (path (width N) n (k / width N ^ (D - n))) ≠ 0 := by
  refine S.below_live (path_ne_nil h1) ⟨(path (width N) D k).drop n, ?_⟩
  rw [← take_path hk hn, List.take_append_drop]
  exact ⟨path_lt D hk, path_length _ _ _, by rw [unpath_path _ _ _ hk]; exact hs⟩

theorem SS.of_live (S : SS N D cap dflt Ph t M B) {n x : Nat} (h1 : 1 ≤ n) (hn : n ≤ D)
    (hx : x < width N ^ n) (h : B (path (width N) n x) ≠ 0) :
    ∃ k, k < width N ^ D ∧ (occ Ph M k).isSome ∧ k / width N ^ (D - n) = x := by
  rcases S.live_below (D - n) _ (by rw [path_length]; omega) (path_ne_nil h1) h with
    ⟨q, g1, g2, g3⟩ | ⟨k, g1, g2, g3⟩
  · have hlt := unpath_lt g1
    have hpu := path_unpath g1
    rw [g2] at hlt hpu
    refine ⟨_, hlt, (occ_isSome _ _ _).2 (.inl g3), ?_⟩
    have := take_path hlt hn
    rw [hpu, List.take_append_of_le_length (by rw [path_length]; omega),
      List.take_of_length_le (by rw [path_length]; omega)] at this
    exact (path_injOn hx (div_lt_pow hlt hn) this).symm
  · refine ⟨k, g2, (occ_isSome _ _ _).2 (.inr g1), ?_⟩
    rw [path_length, take_path g2 hn] at g3
    exact path_injOn (div_lt_pow g2 hn) hx g3

theorem SS.liveCount_le (S : SS N D cap dflt Ph t M B) {n : Nat} (h1 : 1 ≤ n) (hn : n ≤ D) :
    liveCount (width N) n B ≤ groups (width N) D n (occ Ph M) := by
  unfold liveCount groups
  refine List.Nodup.length_le_of_subset (List.nodup_range.filter _) fun x hx => ?_
  rw [List.mem_filter, List.mem_range, decide_eq_true_iff] at hx
  rw [List.mem_filter, List.mem_range, groups_mem]
  exact ⟨hx.1, S.of_live h1 hn hx.1 hx.2⟩

/-- Room for one more block on the way to `k`. -/
theorem SS.liveCount_room (S : SS N D cap dflt Ph t M B) {n k : Nat} (h1 : 1 ≤ n) (hn : n ≤ D)
    (hk : k < width N ^ D) (h0 : B ((path (width N) D k).take n) = 0) {β : Type}
    {M' : Nat → Option β} (hM' : ∀ j, j < width N ^ D → (occ Ph M j).isSome = true ∨ j = k →
      (M' j).isSome = true) :
    liveCount (width N) n B + 1 ≤ groups (width N) D n M' := by
  rw [take_path hk hn] at h0
  unfold liveCount groups
  refine List.Nodup.length_le_of_subset (l₁ := (k / width N ^ (D - n)) ::
    (List.range (width N ^ n)).filter fun x => decide (B (path (width N) n x) ≠ 0)) ?_ fun x hx => ?_
  · rw [List.nodup_cons]
    refine ⟨?_, List.nodup_range.filter _⟩
    rw [List.mem_filter, decide_eq_true_iff]
    exact fun e => e.2 h0
  · rw [List.mem_filter, List.mem_range, groups_mem]
    rw [List.mem_cons, List.mem_filter, List.mem_range, decide_eq_true_iff] at hx
    rcases hx with rfl | ⟨g1, g2⟩
    · exact ⟨div_lt_pow hk hn, k, hk, hM' k hk (.inr rfl), rfl⟩
    · obtain ⟨j, a, b, c⟩ := S.of_live h1 hn g1 g2
      exact ⟨g1, j, a, hM' j a (.inl b), c⟩

theorem groups_full (W D : Nat) (M : Nat → Option α) : groups W D D M = card (W ^ D) M := by
  unfold groups card
  congr 1
  unfold keysOf
  apply List.filter_congr
  intro x hx
  rw [List.mem_range] at hx
  rw [Bool.eq_iff_iff]
  have := groups_mem (W := W) (D := D) (n := D) (x := x) (M := M)
  unfold keysOf at this
  rw [this]
  simp only [Nat.sub_self, Nat.pow_zero, Nat.div_one]
  constructor
  · rintro ⟨k, _, h, rfl⟩; exact h
  · intro h; exact ⟨x, hx, h, rfl⟩

theorem groups_le_card (W D n : Nat) (M : Nat → Option α) :
    groups W D n M ≤ card (W ^ D) M := by
  unfold groups card
  have : ((List.range (W ^ n)).filter fun x =>
      (keysOf (W ^ D) M).any fun k => k / W ^ (D - n) == x).length ≤
      ((keysOf (W ^ D) M).map (· / W ^ (D - n))).length := by
    refine List.Nodup.length_le_of_subset (List.nodup_range.filter _) ?_
    intro x hx
    rw [List.mem_filter, List.any_eq_true] at hx
    obtain ⟨_, k, hk, e⟩ := hx
    rw [List.mem_map]
    exact ⟨k, hk, by simpa using e⟩
  simpa using this

theorem groups_le_pow (W D n : Nat) (M : Nat → Option α) : groups W D n M ≤ W ^ n := by
  unfold groups
  have := List.length_filter_le (fun x => (keysOf (W ^ D) M).any fun k => k / W ^ (D - n) == x)
    (List.range (W ^ n))
  simpa using this

/-! ## The value array -/

theorem SS.enumerate (S : SS N D cap dflt Ph t M B) :
    ∃ vs : List α, t.values = dflt :: vs.map some ∧ t.keys.length = vs.length + 1 ∧
      (t.keys.drop 1).Nodup ∧
      ∀ k v, (∃ j : Nat, (t.keys.drop 1)[j]? = some k ∧ vs[j]? = some v) ↔
        k < width N ^ D ∧ M k = some v := by
  have hlen := S.data.lenK
  have hn := S.data.pos
  obtain ⟨vs, hvs⟩ := all_some (l := t.values.drop 1) (by
    intro d hd
    simp only [List.length_drop] at hd
    obtain ⟨v, hv⟩ := S.data.init (1 + d) (by omega) (by omega)
    exact ⟨v, by rw [List.getElem?_drop]; exact hv⟩)
  have hdata : t.values = dflt :: vs.map some := by
    rw [← hvs]
    have := S.data.zero
    match h : t.values with
    | [] => rw [h] at hn; simp at hn
    | x :: l => rw [h] at this; simp at this; simp [this]
  have hl2 : t.values.length = vs.length + 1 := by rw [hdata]; simp
  refine ⟨vs, hdata, by omega, ?_, ?_⟩
  · rw [List.Nodup, List.pairwise_iff_getElem]
    intro i j hi hj hij
    simp only [List.length_drop] at hi hj
    rw [List.getElem_drop, List.getElem_drop]
    intro e
    obtain ⟨P, hPl, hP⟩ := S.data.surj (1 + i) (by omega) (by omega)
    obtain ⟨Q, hQl, hQ⟩ := S.data.surj (1 + j) (by omega) (by omega)
    have a := S.data.keyOf P hPl (by omega)
    have b := S.data.keyOf Q hQl (by omega)
    rw [hP, List.getElem?_eq_getElem (by omega)] at a
    rw [hQ, List.getElem?_eq_getElem (by omega)] at b
    rw [e] at a
    rw [a] at b
    simp only [Option.some.injEq] at b
    have a' := path_unpath (S.lv.valid P (by omega)).1
    have b' := path_unpath (S.lv.valid Q (by omega)).1
    rw [hPl] at a'; rw [hQl] at b'
    have : P = Q := by rw [← a', ← b', b]
    rw [this, hQ] at hP
    omega
  · intro k v
    constructor
    · rintro ⟨j, hj, hv⟩
      rw [List.getElem?_drop] at hj
      obtain ⟨hjl, -⟩ := List.getElem?_eq_some_iff.1 hj
      obtain ⟨P, hPl, hP⟩ := S.data.surj (1 + j) (by omega) (by omega)
      have hB : B P ≠ 0 := by omega
      have a := S.data.keyOf P hPl hB
      rw [hP, hj] at a
      simp only [Option.some.injEq] at a
      have p1 := (S.lv.valid P hB).1
      have hlt : unpath (width N) P < width N ^ D := by rw [← hPl]; exact unpath_lt p1
      rw [a]
      refine ⟨hlt, ?_⟩
      rw [S.den_path p1 hPl, if_neg hB, hP]
      have : t.values[1 + j]? = some (some v) := by
        rw [hdata, Nat.add_comm, List.getElem?_cons_succ, List.getElem?_map, hv]; rfl
      simp [this]
    · rintro ⟨hk, hM⟩
      rcases S.entry hk with ⟨h, -⟩ | ⟨w, h1, h2, h3⟩
      · rw [hM] at h; cases h
      · have g2 := S.data.keyOf _ (path_length _ _ _) h2
        rw [unpath_path _ D k hk] at g2
        rw [hM] at h1
        cases h1
        refine ⟨B (path (width N) D k) - 1, ?_, ?_⟩
        · rw [List.getElem?_drop, show 1 + (B (path (width N) D k) - 1) = B (path (width N) D k) by omega]
          exact g2
        · rw [hdata, show B (path (width N) D k) = (B (path (width N) D k) - 1) + 1 by omega,
            List.getElem?_cons_succ, List.getElem?_map] at h3
          cases e : vs[B (path (width N) D k) - 1]? with
          | none => rw [e] at h3; cases h3
          | some w => rw [e] at h3; simpa using h3

/-- `values.len() - 1` is the number of stored elements. -/
theorem SS.card_eq (S : SS N D cap dflt Ph t M B) :
    t.values.length = card (width N ^ D) M + 1 := by
  obtain ⟨vs, h1, h2, h3, h4⟩ := S.enumerate
  obtain ⟨p1, -⟩ := values_perm (by simp [h2]) h3 h4
  have := p1.length_eq
  unfold card
  rw [← this]
  simp [h1, h2]

/-- `get_or_insert_impl`, with the room condition on the content. -/
theorem SS.getOrInsert_fits (hc : Cfg N D) (hcap : CapOk D cap)
    (S : SS N D cap dflt Ph t M B) {k : Nat} (hk : k < width N ^ D) (ins : Bool) (v : α) {w : α}
    (hfit : Fits (width N) D cap (occ Ph (put M k (some w)))) :
    ∃ out B', getOrInsertImpl N D t k ins v = .ok out ∧
      SS N D cap dflt Ph out.tree (put M k (some (if ins then v else (M k).getD v))) B' ∧
      out.dataIndex = B' (path (width N) D k) ∧ out.dataIndex ≠ 0 ∧
      out.tree.values[out.dataIndex]? = some (some (if ins then v else (M k).getD v)) ∧
      out.dropped = (if ins then (M k).toList else []) ∧
      out.called = (ins || (M k).isNone) := by
  refine S.getOrInsertImpl_spec hc hcap hk ins v ?_ ?_
  · intro n hn hB
    have h1 := S.liveCount_room (n := n + 1) (by omega) (by omega) hk hB
      (M' := occ Ph (put M k (some w))) (fun j _ h => by
        rw [occ_isSome] at h ⊢
        rcases h with (h | h) | rfl
        · refine .inl ?_
          unfold put
          split
          · rfl
          · exact h
        · exact .inr h
        · exact .inl (by simp [put]))
    have h2 := hfit (n + 1) (by omega) (by omega)
    omega
  · intro hM
    have h2 := hfit D hc.pos (Nat.le_refl _)
    have h3 := groups_mono (W := width N) (D := D) (n := D) (M := put M k (some w))
      (M' := occ Ph (put M k (some w))) (fun j _ h => (occ_isSome _ _ _).2 (.inl h))
    rw [groups_full, card_put_none hk hM] at h3
    rw [S.card_eq]
    omega

end

end Hibit.Sparse
