import Verif.TreeOf
/-!
# Properties C27 – C30, C39, C40: what every tree obeying the trait contract gives its users

`IsTree I s M` (`Verif/TreeOf.lean`): the tree value `s` obeys the trait contract and its content is
the map `M`. The containers and combinators of the crate are shown to satisfy it in
`Props/Dense.lean`, `Props/Sparse.lean` and `Props/Ops.lean`.
-/
namespace Hibit.Props
open Hibit

section
variable {S C δ : Type} {I : Impl S C δ} {s : S} {M : Nat → Option δ}

/-- `listing n M` are exactly the pairs `(i, v)` with `i < n`, `M i = some v`, with strictly
ascending `i`. -/
theorem listing_spec (n : Nat) (M : Nat → Option δ) :
    ((listing n M).map (·.1)).Pairwise (· < ·) ∧
    ∀ i v, (i, v) ∈ listing n M ↔ i < n ∧ M i = some v := by
  constructor
  · unfold listing
    rw [List.map_filterMap]
    have : ((List.range n).filterMap fun i => ((M i).map (fun d => (i, d))).map (·.1)) =
        (List.range n).filter (fun i => (M i).isSome) := by
      rw [← List.filterMap_eq_filter]
      congr 1
      funext i
      cases hM : M i <;> simp [Option.guard, hM]
    rw [this]
    exact List.pairwise_lt_range.filter _
  · intro i v
    simp only [listing, List.mem_filterMap, List.mem_range, Option.map_eq_some_iff]
    constructor
    · rintro ⟨a, h1, d, h2, h3⟩
      simp only [Prod.mk.injEq] at h3
      obtain ⟨rfl, rfl⟩ := h3
      exact ⟨h1, h2⟩
    · rintro ⟨h1, h2⟩
      exact ⟨i, h1, v, h2, rfl⟩

/-- `get` returns the content, for every in-range index; out of range it panics. -/
theorem tree_get (h : IsTree I s M) (i : Nat) :
    I.get s i = if i < min (width I.N ^ I.D) (2 ^ 64 - 1) then .ok (M i) else .error .panic := by
  obtain ⟨T, K, L, hc⟩ := h
  unfold Impl.get indexFrom saturatingPow usizeMod
  by_cases hi : i < min (width I.N ^ I.D) (2 ^ 64 - 1)
  · have hi' : i < width I.N ^ I.D := by omega
    rw [if_pos hi, if_pos hi]
    simp only [bind_ok]
    rw [levelIndices_eq L.cfg]
    simp only [bind_ok]
    have := L.data_eq _ (path_lt I.D hi') (path_length _ _ _)
    rw [unpath_path _ _ _ hi', hc i hi'] at this
    exact this
  · rw [if_neg hi, if_neg hi]; rfl

/-- **C27, C28**: there is a number of search rounds that suffices for every call of `next` (each
call terminates); then, for every `n`, the first `n` calls of `next` on `iter()` return the content
in ascending index order (each index once with the value `get` returns), then `None` for ever. No
call panics or has undefined behaviour. -/
theorem contract_iter (h : IsTree I s M) :
    ∃ F, ∀ fuel, F ≤ fuel → ∀ n, I.iterRun s fuel n =
      .ok ((List.range n).map (fun k => (listing (width I.N ^ I.D) M)[k]?)) := by
  obtain ⟨T, K, L, hc⟩ := h
  obtain ⟨F, hF⟩ := iterRun_spec L
  refine ⟨F, fun fuel hf n => ?_⟩
  rw [hF fuel hf n, entries_eq hc]

/-- **C28**: after the last element every call of `next` returns `None`, for any number of calls. -/
theorem contract_fused (h : IsTree I s M) :
    ∃ F, ∀ fuel, F ≤ fuel → ∀ k, ∃ os, I.iterRun s fuel ((listing (width I.N ^ I.D) M).length + k) =
      .ok (os ++ List.replicate k none) ∧ os = (listing (width I.N ^ I.D) M).map some := by
  obtain ⟨F, hF⟩ := contract_iter h
  refine ⟨F, fun fuel hf k => ⟨_, ?_, rfl⟩⟩
  rw [hF fuel hf]
  congr 1
  generalize listing (width I.N ^ I.D) M = l
  apply List.ext_getElem?
  intro j
  rw [List.getElem?_map]
  by_cases h1 : j < l.length
  · rw [List.getElem?_range (by omega), List.getElem?_append_left (by simpa using h1),
      List.getElem?_map, List.getElem?_eq_getElem h1]
    simp [h1]
  · rw [List.getElem?_append_right (by simpa using h1)]
    by_cases h2 : j < l.length + k
    · rw [List.getElem?_range h2, List.getElem?_replicate, if_pos (by simp; omega)]
      simp; omega
    · rw [List.getElem?_eq_none (by simp; omega), List.getElem?_eq_none (by simp; omega)]
      rfl

/-- **C29**: where `get` is `Some(v)`, `get_unchecked` returns `v` (and stays in bounds). -/
theorem contract_get_unchecked (h : IsTree I s M) {i : Nat} {v : δ} (hg : I.get s i = .ok (some v)) :
    I.getU s i = .ok v := by
  rw [tree_get h] at hg
  obtain ⟨T, K, L, hc⟩ := h
  by_cases hi : i < min (width I.N ^ I.D) (2 ^ 64 - 1)
  · rw [if_pos hi] at hg
    simp only [Except.ok.injEq] at hg
    have hi' : i < width I.N ^ I.D := by omega
    unfold Impl.getU
    rw [levelIndices_eq L.cfg]
    simp only [bind_ok]
    have := L.dataU_eq _ v (path_lt I.D hi') (path_length _ _ _) (by rw [hc i hi', hg])
    rw [unpath_path _ _ _ hi'] at this
    exact this
  · rw [if_neg hi] at hg; cases hg

/-- One mask per selected path, as wide as the tree's nodes and with the bits `B` of that path. -/
def MasksAre (N : Nat) (B : List Nat → Nat → Bool) : List Mask → List (List Nat) → Prop
  | [], [] => True
  | m :: ms, p :: ps => (m.length = N ∧ ∀ j, m.bit j = B p j) ∧ MasksAre N B ms ps
  | _, _ => False

theorem moves_spec {T : TreeSpec δ} {K : CursorRel C} (L : Lawful I s T K) : ∀ (ms : List Move)
    (c : C) (pos : Option (List Nat)), CurAt K c pos →
    (∀ p, pos = some p → ValidPath (width I.N) p) →
    LegalMoves (width I.N) I.D T.bits pos ms →
    ∃ masks c', runMoves I s c ms = .ok (masks, c') ∧
      MasksAre I.N T.bits masks (movePaths pos ms) ∧
      (∀ m ms' p, ms = ms' ++ [m] → (movePaths pos ms).getLast? = some p →
        K.pos c' p ∧ ValidPath (width I.N) p ∧ (m.checked = true → K.posC c' p)) := by
  intro ms
  induction ms with
  | nil =>
    intro c pos _ _ _
    exact ⟨[], c, rfl, trivial, fun m ms' p e => by simp at e⟩
  | cons m ms ih =>
    intro c pos h hv hl
    obtain ⟨mask, c1, e1, h1, h2, h3, h4, h5⟩ := move_spec L h hv hl.1
    obtain ⟨masks, c2, e2, g1, g2⟩ := ih c1 (some (m.path pos)) h3
      (fun p e => by simp only [Option.some.injEq] at e; rw [← e]; exact h5) hl.2
    refine ⟨mask :: masks, c2, ?_, ⟨⟨h1, h2⟩, g1⟩, ?_⟩
    · cases hch : m.checked with
      | true =>
        rw [hch] at e1
        simp only [if_true] at e1
        simp only [runMoves, hch, if_true, e1, bind_ok, e2, pure_eq_ok]
      | false =>
        rw [hch] at e1
        simp only [Bool.false_eq_true, if_false] at e1
        simp only [runMoves, hch, Bool.false_eq_true, if_false, e1, bind_ok, e2, pure_eq_ok]
    · intro m' ms' p e hp
      cases ms with
      | nil =>
        simp only [movePaths, List.getLast?_singleton, Option.some.injEq] at hp
        have hm : m = m' := by
          cases ms' with
          | nil => simpa using e
          | cons a b => simp at e
        simp only [runMoves, Except.ok.injEq, Prod.mk.injEq] at e2
        rw [← e2.2, ← hp, ← hm]
        exact ⟨h3, h5, h4⟩
      | cons a as =>
        have hms : ∃ ms'', a :: as = ms'' ++ [m'] := by
          cases ms' with
          | nil => simp at e
          | cons b bs => simp only [List.cons_append, List.cons.injEq] at e; exact ⟨bs, e.2⟩
        obtain ⟨ms'', hms⟩ := hms
        refine g2 m' ms'' p hms ?_
        rw [← hp]
        simp [movePaths]

/-- **C30, C29**: there is one assignment `B` of masks to paths (satisfying `MaskSpec`: terminal
masks are the present indices; a bit is set if something is stored below it; below an unset bit
everything is empty) such that after *any* legal history of checked and unchecked selects on one
cursor, re-positioning at will, every select has returned the mask of the path it selected – so the
result depends only on the path, not on the history – and at a terminal path
`data_unchecked(k)` returns the value of every present `k`. -/
theorem contract_cursor (h : IsTree I s M) :
    ∃ B, MaskSpec (width I.N) I.D I.exact M B ∧ ∃ c0, I.new s = .ok c0 ∧
      ∀ moves, LegalMoves (width I.N) I.D B none moves →
        ∃ masks c, runMoves I s c0 moves = .ok (masks, c) ∧
          MasksAre I.N B masks (movePaths none moves) ∧
          ∀ p, (movePaths none moves).getLast? = some p → p.length + 1 = I.D →
            ∀ k v, k < width I.N → M (unpath (width I.N) (p ++ [k])) = some v →
              I.curDataU c s k = .ok v := by
  obtain ⟨T, K, L, hc⟩ := h
  obtain ⟨c0, e0, h0⟩ := L.new_ok
  refine ⟨T.bits, maskSpec L.wf hc, c0, e0, fun moves hl => ?_⟩
  obtain ⟨masks, c, e1, h1, h2⟩ := moves_spec L moves c0 none h0 (fun p e => by cases e) hl
  refine ⟨masks, c, e1, h1, fun p hp hd k v hk hv => ?_⟩
  cases moves with
  | nil => simp [movePaths] at hp
  | cons a as =>
    obtain ⟨g1, g2, -⟩ := h2 ((a :: as).getLast (by simp)) (a :: as).dropLast p
      (List.dropLast_concat_getLast (by simp)).symm hp
    exact L.curDataU_eq c p k v g1 g2 hk hd
      (by rw [content_of hc (ValidPath.append g2 hk) (by simpa using hd), hv])

/-- **C39** (for trees satisfying `IsTreeC`: all containers, `union`, `intersection`, `map`,
`multi_intersection` and folds of it): after any legal history of selects ending with a checked one
at a terminal node, the cursor's checked `data(k)` is the tree's `get` at that index. -/
theorem contract_cursor_data (h : IsTreeC I s M) :
    ∃ B, MaskSpec (width I.N) I.D I.exact M B ∧ ∃ c0, I.new s = .ok c0 ∧
      ∀ moves last, LegalMoves (width I.N) I.D B none (moves ++ [last]) → last.checked = true →
        ∃ masks c p, runMoves I s c0 (moves ++ [last]) = .ok (masks, c) ∧
          MasksAre I.N B masks (movePaths none (moves ++ [last])) ∧
          (movePaths none (moves ++ [last])).getLast? = some p ∧
          (p.length + 1 = I.D → ∀ k, k < width I.N →
            I.curData c s k = .ok (M (unpath (width I.N) (p ++ [k])))) := by
  obtain ⟨T, K, L, hc⟩ := h
  obtain ⟨c0, e0, h0⟩ := L.new_ok
  refine ⟨T.bits, maskSpec L.wf hc, c0, e0, fun moves last hl hch => ?_⟩
  obtain ⟨masks, c, e1, h1, h2⟩ := moves_spec L.toLawful _ c0 none h0 (fun p e => by cases e) hl
  have hne : ∀ (pos : Option (List Nat)) (l : List Move),
      ∃ p, (movePaths pos (l ++ [last])).getLast? = some p := by
    intro pos l
    cases hp : (movePaths pos (l ++ [last])).getLast? with
    | some p => exact ⟨p, rfl⟩
    | none =>
      rw [List.getLast?_eq_none_iff] at hp
      cases l <;> simp [movePaths] at hp
  obtain ⟨p, hp⟩ := hne none moves
  refine ⟨masks, c, p, e1, h1, hp, fun hd k hk => ?_⟩
  obtain ⟨-, g2, g3⟩ := h2 last moves p rfl hp
  rw [L.curData_eq c p k (g3 hch) g2 hk hd,
    content_of hc (ValidPath.append g2 hk) (by simpa using hd)]

/-- **C40**: if the tree type declares `EXACT_HIERARCHY = true` then every set bit of every mask
returned by any legal history of selects leads to a present index: some `i` with `get(i) = Some`
whose coordinates extend the selected path and bit. -/
theorem contract_exact (h : IsTree I s M) (hex : I.exact = true) :
    ∃ B, MaskSpec (width I.N) I.D I.exact M B ∧ ∃ c0, I.new s = .ok c0 ∧
      ∀ moves, LegalMoves (width I.N) I.D B none moves →
        ∃ masks c, runMoves I s c0 moves = .ok (masks, c) ∧
          ∀ (n : Nat) m p j, masks[n]? = some m → (movePaths none moves)[n]? = some p →
            m.bit j = true → ∃ q, ValidPath (width I.N) (p ++ j :: q) ∧
              (p ++ j :: q).length = I.D ∧ (M (unpath (width I.N) (p ++ j :: q))).isSome = true := by
  obtain ⟨B, hB, c0, e0, h0⟩ := contract_cursor h
  obtain ⟨T, K, L, hc⟩ := h
  refine ⟨B, hB, c0, e0, fun moves hl => ?_⟩
  obtain ⟨masks, c, e1, h1, -⟩ := h0 moves hl
  refine ⟨masks, c, e1, ?_⟩
  -- selected paths are valid and shorter than the depth
  have hvalid : ∀ (ms : List Move) (pos : Option (List Nat)),
      (∀ p, pos = some p → ValidPath (width I.N) p) → LegalMoves (width I.N) I.D B pos ms →
      ∀ p ∈ movePaths pos ms, ValidPath (width I.N) p ∧ p.length < I.D := by
    intro ms
    induction ms with
    | nil => intro pos _ _ p hp; simp [movePaths] at hp
    | cons m ms ih =>
      intro pos hv hl p hp
      have hm : ValidPath (width I.N) (m.path pos) ∧ (m.path pos).length < I.D := by
        obtain ⟨hi, -, hn⟩ := hl.1
        unfold Move.path
        cases hlev : m.level with
        | zero => exact ⟨ValidPath.nil, by simpa using L.cfg.depth⟩
        | succ n =>
          obtain ⟨hD, q, rfl, hq, -⟩ := hn n hlev
          refine ⟨ValidPath.append ((hv q rfl).take n) hi, ?_⟩
          simp [hq]; omega
      simp only [movePaths, List.mem_cons] at hp
      rcases hp with rfl | hp
      · exact hm
      · exact ih (some (m.path pos)) (fun p e => by
          simp only [Option.some.injEq] at e; rw [← e]; exact hm.1) hl.2 p hp
  have hget : ∀ (masks : List Mask) (paths : List (List Nat)), MasksAre I.N B masks paths →
      ∀ (n : Nat) m p, masks[n]? = some m → paths[n]? = some p → ∀ j, m.bit j = B p j := by
    intro masks
    induction masks with
    | nil => intro paths _ n m p hm; simp at hm
    | cons a as ih =>
      intro paths hma n m p hm hp j
      cases paths with
      | nil => exact hma.elim
      | cons b bs =>
        cases n with
        | zero =>
          simp only [List.getElem?_cons_zero, Option.some.injEq] at hm hp
          rw [← hm, ← hp]; exact hma.1.2 j
        | succ n => exact ih bs hma.2 n m p (by simpa using hm) (by simpa using hp) j
  intro n m p j hm hp hb
  obtain ⟨g1, g2⟩ := hvalid moves none (fun p e => by cases e) hl p (List.mem_of_getElem? hp)
  rw [hget _ _ h1 n m p hm hp j] at hb
  obtain ⟨q, r1, r2, r3⟩ := hB.exact hex p j g1 g2 hb
  exact ⟨q, by simpa using r1, by simpa using r2, by simpa using r3⟩

end

end Hibit.Props
