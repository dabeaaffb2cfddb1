import Verif.Props.Sparse
import Verif.Sparse.Overflow
/-!
# Property C25 at every width and depth

`C25_width256_partial` is the condition under which width 256 works; `C25_fails_any_level` shows that it is
needed at every level, for every width and depth.
-/
namespace Hibit.Props
open Hibit Hibit.Sparse

section
variable {α : Type} {N D : Nat} {dflt : Option α} {ops : List (Op α)} {t : ST α}

/-- The number of elements never exceeds the number of operations. -/
theorem always_card_le {c : Nat} : ∀ (ops : List (Op α)) (M : Nat → Option α),
    card (width N ^ D) M + ops.length ≤ c → (∀ op ∈ ops, op.Ok (keyRange N D) dflt) →
    Always dflt (fun M => card (width N ^ D) M ≤ c) M ops := by
  intro ops
  induction ops with
  | nil => intro M h _; exact h
  | cons op ops ih =>
    intro M h hr
    simp only [List.length_cons] at h
    refine ⟨by omega, ih _ ?_ fun o ho => hr o (by simp [ho])⟩
    have hop := hr op (by simp)
    have : card (width N ^ D) (op.spec dflt M).1 ≤ card (width N ^ D) M + 1 := by
      cases op with
      | insert k v => exact card_put_le (keyRange_lt hop) M _
      | getOrInsert k d g => exact card_put_le (keyRange_lt hop) M _
      | remove k => exact card_put_le (keyRange_lt hop) M _
      | get k => exact Nat.le_succ _
      | getMut k g => exact card_put_le (keyRange_lt hop) M _
      | getOrDefault k => exact Nat.le_succ _
      | mutValues g => exact Nat.le_succ_of_le (Nat.le_of_eq (card_map _ M g))
    omega

/-- **C25**, every width and depth: in a history in which at most 255 of the root's ranges and at most
65535 of the next level's ranges hold a key at the same time, and fewer than 2^32 elements are stored, no
index is truncated: everything behaves as the map. (Widths 64 and 128: `C25_index_types_partial`.) -/
theorem C25_width256_partial (hc : Cfg N D) (ops : List (Op α))
    (hok : ∀ op ∈ ops, op.Ok (keyRange N D) dflt)
    (hroom : Always dflt (fun M => card (width N ^ D) M < 2 ^ 32 ∧
      (1 ≤ D → groups (width N) D 1 M ≤ 255) ∧ (2 ≤ D → groups (width N) D 2 M ≤ 65535)) emptyMap ops) :
    ∃ t, run N D (Sparse.default α N D dflt) ops = .ok (t, (specRun dflt emptyMap ops).2) ∧
      ∀ k, k < keyRange N D → (impl α N D).get t k = .ok ((specRun dflt emptyMap ops).1 k) :=
  C19_sparse_map ⟨hc, hok, hroom.mono fun M hM => fits_of_groups M hM.1 hM.2.1 hM.2.2⟩

/-- Every history of fewer than 256 operations has room, whatever the keys. -/
theorem SparseHistory.of_few (hc : Cfg N D) (hl : ops.length < 256)
    (hr : ∀ op ∈ ops, op.Ok (keyRange N D) dflt) : SparseHistory N D dflt ops := by
  have h0 : card (width N ^ D) (emptyMap : Nat → Option α) = 0 := card_empty _
  refine ⟨hc, hr, (always_card_le (c := 255) ops emptyMap (by omega) hr).mono fun M hM => ?_⟩
  have h1 := groups_le_card (width N) D 1 M
  have h2 := groups_le_card (width N) D 2 M
  exact fits_of_groups M (by omega) (fun _ => by omega) (fun _ => by omega)

/-- **C25** fails at every level `n` of every configuration, once the child index type of the level above
is exhausted: after any supported history with `2^bits - 1` occupied ranges of level `n` (`n = D`:
`2^bits - 1` elements), inserting a key `k` into an unoccupied range of level `n` whose parent range is
occupied (or is the root) reports success, but `get(k)` still returns `None`; at the same time
`key_values()` does list `k`. The index type has 8 bits for `n = 1`, 16 for `n = 2`, 32 below
(`idxBits`); with width 256 this is reached with 255 elements, with widths 64 and 128 only with 2^32 - 1
elements or nodes. -/
theorem C25_fails_any_level (h : SparseHistory N D dflt ops) (hr : SparseReached N D dflt ops t)
    {k n : Nat} (hk : k < keyRange N D) (h1 : 1 ≤ n) (hn : n ≤ D)
    (hfull : groups (width N) D n (specRun dflt emptyMap ops).1 + 1 = 2 ^ idxBits (n - 1))
    (hmiss : ∀ j, j < width N ^ D → j / width N ^ (D - n) = k / width N ^ (D - n) →
      (specRun dflt emptyMap ops).1 j = none)
    (hpar : n = 1 ∨ ∃ j, j < width N ^ D ∧ ((specRun dflt emptyMap ops).1 j).isSome = true ∧
      j / width N ^ (D - (n - 1)) = k / width N ^ (D - (n - 1))) (v : α) :
    ∃ out ks vs, Sparse.insert N D t k v = .ok out ∧ out.called = true ∧
      (impl α N D).get out.tree k = .ok none ∧
      keyValues t = .ok (ks, vs) ∧ keyValues out.tree = .ok (ks ++ [k], vs ++ [some v]) := by
  obtain ⟨B, S⟩ := h.rep hr
  have hk' := keyRange_lt hk
  obtain ⟨m, rfl⟩ : ∃ m, n = m + 1 := ⟨n - 1, by omega⟩
  simp only [Nat.add_sub_cancel] at hfull hpar
  -- live prefixes
  have hlive : ∀ l, 1 ≤ l → l ≤ m → B ((path (width N) D k).take l) ≠ 0 := by
    intro l g1 g2
    rcases hpar with e | ⟨j, j1, j2, j3⟩
    · omega
    · have e1 := take_path j1 (n := m) (by omega)
      rw [j3, ← take_path hk' (by omega)] at e1
      have e2 : (path (width N) D j).take l = (path (width N) D k).take l := by
        have := congrArg (List.take l) e1
        rwa [List.take_take, List.take_take, Nat.min_eq_left g2] at this
      rw [← e2, take_path j1 (by omega)]
      exact S.live_of g1 (by omega) j1 j2
  have habs : B ((path (width N) D k).take (m + 1)) = 0 := by
    refine Classical.byContradiction fun hne => ?_
    rw [take_path hk' hn] at hne
    obtain ⟨j, j1, j2, j3⟩ := S.of_live h1 hn (div_lt_pow hk' hn) hne
    rw [occ_isSome] at j2
    rcases j2 with j2 | j2
    · rw [hmiss j j1 j3] at j2; cases j2
    · cases j2
  have hcount : ∀ l, 1 ≤ l → l ≤ D →
      liveCount (width N) l B = groups (width N) D l (specRun dflt emptyMap ops).1 := by
    intro l g1 g2
    refine Nat.le_antisymm ?_ ?_
    · have := S.liveCount_le g1 g2
      rwa [groups_occ_nil] at this
    · unfold liveCount groups
      refine List.Nodup.length_le_of_subset (List.nodup_range.filter _) fun x hx => ?_
      rw [List.mem_filter, List.mem_range, groups_mem] at hx
      obtain ⟨x1, j, j1, j2, j3⟩ := hx
      rw [List.mem_filter, List.mem_range, decide_eq_true_iff]
      exact ⟨x1, by rw [← j3]; exact S.live_of g1 g2 j1 j2⟩
  obtain ⟨out, e, g1, g2, g3, -, lbi, g4⟩ := S.insert_lost h.cfg hk' (n := m) (by omega) hlive habs
    (by
      split
      · rw [hcount _ h1 hn, hfull, idxCap_eq]
      · obtain rfl : D = m + 1 := by omega
        rw [S.card_eq, ← groups_full, hfull, idxCap_eq]) true v
  obtain ⟨vs, f1, f2, -, -⟩ := S.enumerate
  refine ⟨out, t.keys.drop 1, t.values.drop 1, ?_, g1, ?_, ?_, ?_⟩
  · unfold Sparse.insert
    rw [indexFrom_eq, if_pos hk]
    exact e
  · show (do let index ← indexFrom N D k
             let indices ← levelIndices N D index
             treeData out.tree indices) = _
    rw [indexFrom_eq, if_pos hk]
    simp only [bind_ok, levelIndices_eq h.cfg.valid]
    unfold treeData fetchBlockIndex
    simp only [g4, bind_ok, pure_eq_ok, if_true]
  · unfold keyValues
    rw [if_pos ⟨by omega, by rw [f1]; simp⟩]
  · unfold keyValues
    rw [g2, g3, if_pos ⟨by simp, by simp⟩, List.drop_append_of_le_length (by omega),
      List.drop_append_of_le_length (by rw [f1]; simp)]

/-- One key in each of the first 255 root ranges of a tree of width 256 and depth 2. -/
def exWide : List (Op Nat) := (List.range 255).map fun i => .insert (256 * i) i

theorem exWide_run : ∀ (l : List Nat) (M : Nat → Option Nat),
    (specRun none M (l.map fun i => Op.insert (256 * i) i)).1 =
      fun k => if k % 256 = 0 ∧ k / 256 ∈ l then some (k / 256) else M k := by
  intro l
  induction l with
  | nil => intro M; simp [specRun]
  | cons a l ih =>
    intro M
    have : (specRun none M (List.map (fun i => Op.insert (256 * i) i) (a :: l))).1 =
        (specRun none (put M (256 * a) (some a)) (l.map fun i => Op.insert (256 * i) i)).1 := rfl
    rw [this, ih]
    funext k
    by_cases h1 : k % 256 = 0 ∧ k / 256 ∈ l
    · simp [h1]
    · by_cases h2 : k = 256 * a
      · subst h2
        have : 256 * a % 256 = 0 ∧ 256 * a / 256 = a := by omega
        simp [this, put]
      · have h3 : ¬ (k % 256 = 0 ∧ k / 256 = a) := by omega
        simp only [put, if_neg h2, if_neg h1, List.mem_cons]
        rw [if_neg]
        rintro ⟨g1, g2 | g2⟩
        · exact h3 ⟨g1, g2⟩
        · exact h1 ⟨g1, g2⟩

theorem exWide_history : SparseHistory 4 2 (none : Option Nat) exWide := by
  refine .of_few ⟨by decide, by decide, by decide⟩ (by simp [exWide]) fun op hop => ?_
  simp only [exWide, List.mem_map, List.mem_range] at hop
  obtain ⟨i, hi, rfl⟩ := hop
  have : keyRange 4 2 = 65536 := by decide
  show 256 * i < keyRange 4 2
  omega

/-- `C25_fails_any_level` applies at depth 2: the key 65280 = 255·256 is lost. -/
example : ∃ t out ks vs, SparseReached 4 2 none exWide t ∧ Sparse.insert 4 2 t 65280 7 = .ok out ∧
    (impl Nat 4 2).get out.tree 65280 = .ok none ∧ keyValues out.tree = .ok (ks ++ [65280], vs ++ [some 7]) := by
  have hM := exWide_run (List.range 255) emptyMap
  obtain ⟨t, e, -⟩ := exWide_history.reachCap (idxCap_ok 2) exWide_history.fits
  have hw : width 4 = 256 := by decide
  have H1 : groups (width 4) 2 1 (specRun none emptyMap exWide).1 + 1 = 256 := by
    have : groups (width 4) 2 1 (specRun none emptyMap exWide).1 = 255 := by
      unfold exWide
      rw [hM]
      unfold groups
      have hf : ((List.range (width 4 ^ 1)).filter fun x => (keysOf (width 4 ^ 2) (fun k =>
          if k % 256 = 0 ∧ k / 256 ∈ List.range 255 then some (k / 256) else emptyMap k)).any
          fun k => k / width 4 ^ (2 - 1) == x) = (List.range 256).filter fun x => decide (x < 255) := by
        rw [show List.range (width 4 ^ 1) = List.range 256 from congrArg List.range (by decide)]
        apply List.filter_congr
        intro x _
        rw [Bool.eq_iff_iff, groups_mem, decide_eq_true_iff, hw]
        constructor
        · rintro ⟨k, -, k2, k3⟩
          simp only [List.mem_range, emptyMap] at k2
          split at k2
          · rename_i h; omega
          · cases k2
        · intro hx
          refine ⟨256 * x, by omega, ?_, by omega⟩
          have : 256 * x % 256 = 0 ∧ 256 * x / 256 < 255 := by omega
          simp [this, hx]
      rw [hf]; decide +kernel
    omega
  have H2 : ∀ j, j < keyRange 4 2 → j / width 4 ^ (2 - 1) = 65280 / width 4 ^ (2 - 1) →
      (specRun none emptyMap exWide).1 j = none := by
    intro j _ hj
    unfold exWide
    rw [hM, hw] at *
    have : ¬ (j % 256 = 0 ∧ j / 256 ∈ List.range 255) := by
      rw [List.mem_range]; omega
    simp only [if_neg this]; rfl
  obtain ⟨out, ks, vs, a1, -, a2, -, a3⟩ := C25_fails_any_level exWide_history ⟨_, e⟩ (k := 65280) (n := 1)
    (by decide) (by decide) (by decide) H1 H2 (.inl rfl) 7
  exact ⟨t, out, ks, vs, ⟨_, e⟩, a1, a2, a3⟩

end

end Hibit.Props
