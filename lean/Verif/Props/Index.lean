import Verif.IndexLemmas
import Verif.ConstFor
/-!
# Properties C01, C02, C03, C44

Specification vocabulary: `path W D i` are the base-`W` digits of `i`, most significant first;
`unpath W p` is the number with digits `p`; `lexLt` is the lexicographic order
(`Verif/Index.lean`, end); `visitList` runs a visitor over a list (`Verif/ConstFor.lean`).
-/
namespace Hibit.Props
open Hibit

/-- **C01**, splitting: in every supported configuration `level_indices` succeeds on every
in-range index with exactly `D` coordinates, all below the width, and `data_block_index` applied
to them (as iteration does) gives the index back. -/
theorem C01_split_recombine {N D : Nat} (hc : ValidCfg N D) {i : Nat} (hi : i < width N ^ D) :
    ∃ li last, levelIndices N D i = .ok (li ++ [last]) ∧ (li ++ [last]).length = D ∧
      (∀ x ∈ li ++ [last], x < width N) ∧
      ∀ extra, dataBlockIndex N D (li ++ extra) last = .ok i := by
  have hlen := path_length (width N) D i
  have hlt := path_lt D hi
  have hlev := levelIndices_eq hc i
  have hup := unpath_path (width N) D i hi
  generalize path (width N) D i = p at *
  have hD := hc.depth
  have hne : p ≠ [] := by intro e; rw [e] at hlen; simp at hlen; omega
  obtain ⟨q, x, rfl⟩ : ∃ q x, p = q ++ [x] := ⟨p.dropLast, p.getLast hne, (List.dropLast_concat_getLast hne).symm⟩
  refine ⟨q, x, hlev, hlen, hlt, fun extra => ?_⟩
  rw [dataBlockIndex_eq hc (q := q) (by simpa using hlen) (fun y hy => hlt y (by simp [hy]))
    (hlt x (by simp)) (by simp), hup]

/-- Width 128, depth 3: 70000 has the coordinates 4, 34, 112. -/
example : ValidCfg 2 3 ∧ 70000 < width 2 ^ 3 ∧ levelIndices 2 3 70000 = .ok ([4, 34] ++ [112]) ∧
    dataBlockIndex 2 3 ([4, 34] ++ [99]) 112 = .ok 70000 :=
  ⟨⟨.inr (.inl rfl), by decide, by decide⟩, by decide, by decide, by decide⟩

/-- **C01**, bijectivity: every list of `D` coordinates below the width is the split of exactly
one in-range index. -/
theorem C01_bijective {N D : Nat} (hc : ValidCfg N D) {p : List Nat} (hl : p.length = D)
    (hp : ∀ x ∈ p, x < width N) :
    ∃ i, (i < width N ^ D ∧ levelIndices N D i = .ok p) ∧
      ∀ j, j < width N ^ D → levelIndices N D j = .ok p → j = i := by
  subst hl
  refine ⟨unpath (width N) p, ⟨unpath_lt hp, by rw [levelIndices_eq hc, path_unpath hp]⟩, ?_⟩
  intro j hj h
  rw [levelIndices_eq hc] at h
  simp only [Except.ok.injEq] at h
  rw [← h, unpath_path _ _ _ hj]

/-- The largest coordinates of width 64, depth 9. -/
example : ∃ i, (i < width 1 ^ 9 ∧ levelIndices 1 9 i = .ok [63, 63, 63, 63, 63, 63, 63, 63, 62]) ∧
    ∀ j, j < width 1 ^ 9 → levelIndices 1 9 j = .ok [63, 63, 63, 63, 63, 63, 63, 63, 62] → j = i :=
  C01_bijective ⟨.inl rfl, by decide, by decide⟩ rfl (by decide)

/-- **C01**, order: indices are ordered as their coordinates lexicographically. -/
theorem C01_order {N D : Nat} (hc : ValidCfg N D) {i j : Nat} (hi : i < width N ^ D)
    (hj : j < width N ^ D) : ∃ p q, levelIndices N D i = .ok p ∧ levelIndices N D j = .ok q ∧
      (i < j ↔ lexLt p q) :=
  ⟨_, _, levelIndices_eq hc i, levelIndices_eq hc j, (lexLt_path_iff D hi hj).symm⟩

example : ValidCfg 1 9 ∧ ValidCfg 2 8 ∧ ValidCfg 4 8 ∧ levelIndices 2 3 70000 = .ok [4, 34, 112] :=
  ⟨⟨.inl rfl, by decide, by decide⟩, ⟨.inr (.inl rfl), by decide, by decide⟩,
   ⟨.inr (.inr rfl), by decide, by decide⟩, by decide⟩

/-- **C02**: a `usize` is accepted as an index iff it is below `W^D` saturated at `usize::MAX`;
the accepted value is unchanged, everything else panics. -/
theorem C02_index_from (N D index : Nat) :
    (index < min ((64 * N) ^ D) (2 ^ 64 - 1) → indexFrom N D index = .ok index) ∧
    (¬ index < min ((64 * N) ^ D) (2 ^ 64 - 1) → indexFrom N D index = .error .panic) := by
  unfold indexFrom saturatingPow width usizeMod
  exact ⟨fun h => if_pos h, fun h => if_neg h⟩

example : indexFrom 4 8 (2 ^ 64 - 2) = .ok (2 ^ 64 - 2) ∧ indexFrom 4 8 (2 ^ 64 - 1) = .error .panic ∧
    indexFrom 1 2 4096 = .error .panic := by decide

/-- **C03**, for all configurations with `W^D < 2^64` (all but width 256 depth 8):
`index_range()` succeeds in debug and release builds with an end that is the exact bound of the
accepted indices. Missing: width 256, depth 8, where it is false (`C03_fails_256_8`). -/
theorem C03_index_range_partial {N D : Nat} (h : width N ^ D < 2 ^ 64) :
    ∃ e, indexRangeEnd N D = .ok e ∧ indexRangeEndRelease N D = e ∧
      ∀ i, i < e ↔ indexFrom N D i = .ok i := by
  refine ⟨width N ^ D, ?_, ?_, fun i => ?_⟩
  · unfold indexRangeEnd powDebug usizeMod; rw [if_pos h]
  · unfold indexRangeEndRelease powRelease usizeMod; exact Nat.mod_eq_of_lt h
  · unfold indexFrom saturatingPow usizeMod
    rw [Nat.min_eq_left (by omega)]
    by_cases hi : i < width N ^ D <;> simp [hi]

example : width 4 ^ 7 < 2 ^ 64 ∧ indexRangeEnd 4 7 = .ok (2 ^ 56) ∧ indexFrom 4 7 (2 ^ 56 - 1) = .ok (2 ^ 56 - 1) ∧
    indexFrom 4 7 (2 ^ 56) = .error .panic := by decide

/-- The configurations of the crate other than (256, 8) meet the hypothesis of
`C03_index_range_partial`. -/
theorem C03_configs {N D : Nat} (h : (N = 1 ∧ D ≤ 9) ∨ (N = 2 ∧ D ≤ 8) ∨ (N = 4 ∧ D ≤ 7)) :
    width N ^ D < 2 ^ 64 := by
  rcases h with ⟨rfl, h⟩ | ⟨rfl, h⟩ | ⟨rfl, h⟩
  · exact Nat.lt_of_le_of_lt (Nat.pow_le_pow_right (by decide) h) (show width 1 ^ 9 < 2 ^ 64 by decide)
  · exact Nat.lt_of_le_of_lt (Nat.pow_le_pow_right (by decide) h) (show width 2 ^ 8 < 2 ^ 64 by decide)
  · exact Nat.lt_of_le_of_lt (Nat.pow_le_pow_right (by decide) h) (show width 4 ^ 7 < 2 ^ 64 by decide)

example : ∃ e, indexRangeEnd 2 8 = .ok e ∧ indexRangeEndRelease 2 8 = e ∧
    ∀ i, i < e ↔ indexFrom 2 8 i = .ok i :=
  C03_index_range_partial (C03_configs (.inr (.inl ⟨rfl, by decide⟩)))

/-- **C03** is false for width 256, depth 8 (a shipped configuration): the power overflows, so
`index_range()` panics in debug builds and is the empty range `0..0` in release builds, although
every `usize` but the last is accepted as an index. -/
theorem C03_fails_256_8 : indexRangeEnd 4 8 = .error .panic ∧ indexRangeEndRelease 4 8 = 0 ∧
    ∀ i, i < 2 ^ 64 - 1 → indexFrom 4 8 i = .ok i := by
  refine ⟨by decide, by decide, fun i hi => ?_⟩
  have : saturatingPow (width 4) 8 = 2 ^ 64 - 1 := by decide
  unfold indexFrom
  rw [this]
  exact if_pos hi

/-- **C03** fails whenever the power does not fit `usize` (of the crate's configurations: width 256, depth 8
only, by `C03_configs`): in debug builds `index_range()` panics, and in release builds its end is never
the bound of the accepted indices. -/
theorem C03_iff {N D : Nat} (hD : 1 ≤ D) :
    (width N ^ D < 2 ^ 64 ↔ ∃ e, indexRangeEnd N D = .ok e) ∧
    (width N ^ D < 2 ^ 64 ↔ ∀ i, i < indexRangeEndRelease N D ↔ indexFrom N D i = .ok i) := by
  constructor
  · constructor
    · intro h
      exact ⟨_, by unfold indexRangeEnd powDebug usizeMod; rw [if_pos h]⟩
    · rintro ⟨e, he⟩
      apply Classical.byContradiction
      intro h
      unfold indexRangeEnd powDebug usizeMod at he
      rw [if_neg h] at he
      cases he
  · constructor
    · intro h
      obtain ⟨e, -, e2, e3⟩ := C03_index_range_partial h
      rw [e2]; exact e3
    · intro hc
      apply Classical.byContradiction
      intro h
      have hd : 2 ∣ width N ^ D := by
        have : 2 ∣ width N := ⟨32 * N, by unfold width; omega⟩
        exact Nat.dvd_trans this (by
          obtain ⟨E, rfl⟩ : ∃ E, D = E + 1 := ⟨D - 1, by omega⟩
          rw [Nat.pow_succ]; exact Nat.dvd_mul_left _ _)
      have hE : ∀ i, indexFrom N D i = .ok i ↔ i < 2 ^ 64 - 1 := by
        intro i
        unfold indexFrom saturatingPow usizeMod
        rw [Nat.min_eq_right (by omega)]
        by_cases hi : i < 2 ^ 64 - 1 <;> simp [hi]
      have h2 : indexRangeEndRelease N D = width N ^ D % 2 ^ 64 := rfl
      rw [h2] at hc
      have hodd : width N ^ D % 2 ^ 64 ≠ 2 ^ 64 - 1 := by omega
      have hlt : width N ^ D % 2 ^ 64 < 2 ^ 64 := Nat.mod_lt _ (by decide)
      generalize width N ^ D % 2 ^ 64 = e at *
      have h3 := hc e
      rw [hE] at h3
      omega

/-! ## C44: compile-time loops -/

/-- **C44**, `const_loop!`: for every range with end below 9 (anything else does not compile) the
forward loop visits `start..end` ascending, each once, until the body breaks. -/
theorem C44_const_loop {σ : Type} {start stop : Nat} (h1 : stop < 9) (h2 : start ≤ stop)
    (v : σ → Nat → R (σ × Bool)) (s : σ) :
    constLoop start stop v s = visitList v (rangeFromTo start stop) s :=
  constLoop_eq start stop v s h1 h2

/-- A body that records its argument and breaks at 3. -/
example : constLoop 1 5 (fun l i => .ok (l ++ [i], i == 3)) [] = .ok ([1, 2, 3], true) ∧
    visitList (fun l i => .ok (l ++ [i], i == 3)) (rangeFromTo 1 5) [] = .ok ([1, 2, 3], true) := by decide

/-- **C44**, `const_loop!(.. rev ..)`: the same range, descending. -/
theorem C44_const_loop_rev {σ : Type} {start stop : Nat} (h1 : stop < 9) (h2 : start ≤ stop)
    (v : σ → Nat → R (σ × Bool)) (s : σ) :
    constLoopRev start stop v s = visitList v (rangeFromTo start stop).reverse s :=
  constLoopRev_eq start stop v s h1 h2

example : constLoopRev 1 5 (fun l i => .ok (l ++ [i], i == 3)) [] = .ok ([4, 3], true) := by decide

/-- **C44**, `const_for_rev(0, to)`, the only form used by the crate. Missing: other lower bounds,
where it is false (`C44_const_for_rev_fails`). -/
theorem C44_const_for_rev_partial {σ : Type} (to : Nat) (v : σ → Nat → R (σ × Bool)) (s : σ) :
    constForRev 0 to v s = visitList v (rangeFromTo 0 to).reverse s := by
  unfold constForRev
  rw [iterateAsRangeRev_zero]
  simp [rangeFromTo]

example : constForRev 0 3 (fun l i => .ok (l ++ [i], false)) [] = .ok ([2, 1, 0], false) := by decide

/-- **C44**, `const_for(from, to)` for `from ≤ 1`. Missing: `from ≥ 2`, where it is false
(`C44_const_for_fails`). -/
theorem C44_const_for_partial {σ : Type} (frm to : Nat) (hf : frm ≤ 1) (h : frm ≤ to)
    (v : σ → Nat → R (σ × Bool)) (s : σ) :
    constFor frm to v s = visitList v (rangeFromTo frm to) s := by
  unfold constFor
  induction to generalizing s with
  | zero =>
    have : frm = 0 := by omega
    subst this; rfl
  | succ n ih =>
    rw [iterateAsRange]
    by_cases hn : n + 1 = frm
    · have : n = 0 := by omega
      subst this; subst hn
      simp [iterateAsRange, rangeFromTo, visitList]
    · rw [ih (by omega)]
      have hr : rangeFromTo frm (n + 1) = rangeFromTo frm n ++ [n] := by
        unfold rangeFromTo
        rw [show n + 1 - frm = (n - frm) + 1 by omega, List.range_succ, List.map_append]
        simp; omega
      rw [hr, visitList_append]
      congr 1
      funext ⟨s', b⟩
      cases b with
      | true => rfl
      | false =>
        simp only [Bool.false_eq_true, if_false, visitList, pure_eq_ok]
        rw [if_neg hn]
        cases v s' n with
        | error e => rfl
        | ok r => obtain ⟨r1, r2⟩ := r; cases r2 <;> rfl

example : constFor 1 4 (fun l i => .ok (l ++ [i], false)) [] = .ok ([1, 2, 3], false) ∧
    constFor 0 4 (fun l i => .ok (l ++ [i], i == 1)) [] = .ok ([0, 1], true) := by decide

/-- A visitor recording its arguments. -/
def record (s : List Nat) (i : Nat) : R (List Nat × Bool) := .ok (s ++ [i], false)

/-- **C44** is false for `const_for` with lower bound 2: `const_for(2, 3)` visits 0 and 2 instead
of 2. -/
theorem C44_const_for_fails : constFor 2 3 record [] = .ok ([0, 2], false) ∧
    visitList record (rangeFromTo 2 3) [] = .ok ([2], false) := by decide

/-- **C44** is false for `const_for_rev` with lower bound 1: `const_for_rev(1, 3)` visits 2, 1, 0
instead of 2, 1. -/
theorem C44_const_for_rev_fails : constForRev 1 3 record [] = .ok ([2, 1, 0], false) ∧
    visitList record (rangeFromTo 1 3).reverse [] = .ok ([2, 1], false) := by decide

/-- `rangeFromTo a b` is the ascending list of the integers `a ≤ x < b`. -/
theorem rangeFromTo_spec (a b : Nat) : (rangeFromTo a b).Pairwise (· < ·) ∧
    ∀ x, x ∈ rangeFromTo a b ↔ a ≤ x ∧ x < b := by
  unfold rangeFromTo
  constructor
  · rw [List.pairwise_map]
    exact List.pairwise_lt_range.imp (fun h => by omega)
  · intro x
    simp only [List.mem_map, List.mem_range]
    exact ⟨by rintro ⟨y, hy, rfl⟩; omega, fun h => ⟨x - a, by omega, by omega⟩⟩

/-- **C44**, `const_for` for every lower bound: it visits every `i < to` ascending except `from - 1` — the
range for `from ≤ 1`, too much for `2 ≤ from ≤ to`. -/
theorem C44_const_for_visits {σ : Type} (frm to : Nat) (v : σ → Nat → R (σ × Bool)) (s : σ) :
    constFor frm to v s = visitList v ((List.range to).filter (fun i => i + 1 ≠ frm)) s := by
  unfold constFor
  induction to generalizing s with
  | zero => rfl
  | succ n ih =>
    rw [iterateAsRange, ih, List.range_succ, List.filter_append, visitList_append]
    congr 1
    funext ⟨s', b⟩
    cases b with
    | true => rfl
    | false =>
      simp only [Bool.false_eq_true, if_false, pure_eq_ok]
      by_cases hn : n + 1 = frm
      · simp [hn, visitList]
      · rw [if_neg hn]
        simp only [List.filter_cons, List.filter_nil, ne_eq, hn, not_false_eq_true, decide_true, if_true,
          visitList]
        cases v s' n with
        | error e => rfl
        | ok r => obtain ⟨r1, r2⟩ := r; cases r2 <;> rfl

/-- **C44**, `const_for_rev` for every lower bound `1 ≤ from ≤ to`: it visits `from - 1` as well. -/
theorem C44_const_for_rev_visits {σ : Type} (frm to : Nat) (h1 : 1 ≤ frm) (h2 : frm ≤ to)
    (v : σ → Nat → R (σ × Bool)) (s : σ) :
    constForRev frm to v s = visitList v (rangeFromTo (frm - 1) to).reverse s := by
  unfold constForRev
  induction to generalizing s with
  | zero => omega
  | succ n ih =>
    have hr : rangeFromTo (frm - 1) (n + 1) = rangeFromTo (frm - 1) n ++ [n] := by
      unfold rangeFromTo
      rw [show n + 1 - (frm - 1) = (n - (frm - 1)) + 1 by omega, List.range_succ, List.map_append]
      simp; omega
    rw [iterateAsRangeRev, hr, List.reverse_append]
    simp only [List.reverse_cons, List.reverse_nil, List.nil_append, List.cons_append, visitList]
    cases v s n with
    | error e => rfl
    | ok r =>
      obtain ⟨s', b⟩ := r
      cases b with
      | true => rfl
      | false =>
        simp only [bind_ok, Bool.false_eq_true, if_false]
        by_cases hn : n + 1 = frm
        · rw [if_pos hn]
          have : rangeFromTo (frm - 1) n = [] := by
            unfold rangeFromTo
            rw [show n - (frm - 1) = 0 by omega]; rfl
          rw [this]; rfl
        · rw [if_neg hn]; exact ih (by omega) s'

/-- The recording visitor sees the list. -/
theorem visitList_record : ∀ (l s : List Nat), visitList record l s = .ok (s ++ l, false)
  | [], s => by simp [visitList]
  | a :: l, s => by
    simp only [visitList, record, bind_ok, Bool.false_eq_true, if_false]
    rw [visitList_record l (s ++ [a])]; simp

/-- **C44** holds of `const_for` exactly when the lower bound is at most 1. -/
theorem C44_const_for_iff (frm to : Nat) (h : frm ≤ to) :
    (∀ (σ : Type) (v : σ → Nat → R (σ × Bool)) (s : σ),
      constFor frm to v s = visitList v (rangeFromTo frm to) s) ↔ frm ≤ 1 := by
  constructor
  · intro hc
    have h1 := hc _ record []
    rw [C44_const_for_visits, visitList_record, visitList_record] at h1
    simp only [List.nil_append, Except.ok.injEq, Prod.mk.injEq, and_true] at h1
    by_cases hf : frm ≤ 1
    · exact hf
    · exfalso
      have h0 : 0 ∈ (List.range to).filter (fun i => i + 1 ≠ frm) := by
        simp only [List.mem_filter, List.mem_range, decide_eq_true_eq]; omega
      rw [h1] at h0
      have := ((rangeFromTo_spec frm to).2 0).1 h0
      omega
  · exact fun hf σ v s => C44_const_for_partial frm to hf h v s

/-- **C44** holds of `const_for_rev` exactly when the lower bound is 0. -/
theorem C44_const_for_rev_iff (frm to : Nat) (h : frm ≤ to) :
    (∀ (σ : Type) (v : σ → Nat → R (σ × Bool)) (s : σ),
      constForRev frm to v s = visitList v (rangeFromTo frm to).reverse s) ↔ frm = 0 := by
  constructor
  · intro hc
    by_cases hf : frm = 0
    · exact hf
    · exfalso
      have h1 := hc _ record []
      rw [C44_const_for_rev_visits frm to (by omega) h, visitList_record, visitList_record] at h1
      simp only [List.nil_append, Except.ok.injEq, Prod.mk.injEq, and_true] at h1
      have h0 : frm - 1 ∈ (rangeFromTo (frm - 1) to).reverse := by
        rw [List.mem_reverse]
        exact ((rangeFromTo_spec (frm - 1) to).2 (frm - 1)).2 ⟨Nat.le_refl _, by omega⟩
      rw [h1, List.mem_reverse] at h0
      have := ((rangeFromTo_spec frm to).2 (frm - 1)).1 h0
      omega
  · intro hf σ v s
    subst hf
    exact C44_const_for_rev_partial to v s

example : constFor 3 5 record [] = .ok ([0, 1, 3, 4], false) ∧
    constForRev 3 5 record [] = .ok ([4, 3, 2], false) := by decide

example : constLoop 1 4 record [] = .ok ([1, 2, 3], false) ∧
    constLoopRev 1 4 record [] = .ok ([3, 2, 1], false) := by decide

end Hibit.Props
