import Verif.Props.Ops
import Verif.Props.Sparse
/-!
# Property C50: what a tree with exact hierarchy shows depends only on its content

`exactMask W D M p j` says directly from the keys of the map `M` what bit `j` of the node at path `p`
is: whether some key of `M` has the coordinates `p ++ [j]` first.
-/
namespace Hibit.Props
open Hibit

/-- Some stored key's coordinates begin with `p ++ [j]`. -/
def exactMask {δ : Type} (W D : Nat) (M : Nat → Option δ) (p : List Nat) (j : Nat) : Bool :=
  (List.range (W ^ D)).any fun k =>
    (M k).isSome && decide ((path W D k).take (p.length + 1) = p ++ [j])

theorem exactMask_iff {δ : Type} {W D : Nat} {M : Nat → Option δ} {p : List Nat} {j : Nat}
    (hl : p.length < D) : exactMask W D M p j = true ↔ Below W D M (p ++ [j]) := by
  unfold exactMask
  rw [List.any_eq_true]
  constructor
  · rintro ⟨k, hk, h⟩
    rw [List.mem_range] at hk
    rw [Bool.and_eq_true, decide_eq_true_iff] at h
    refine ⟨(path W D k).drop (p.length + 1), ?_⟩
    rw [← h.2, List.take_append_drop]
    exact ⟨path_lt D hk, path_length _ _ _, by rw [unpath_path W D k hk]; exact h.1⟩
  · rintro ⟨q, h1, h2, h3⟩
    have hlt := unpath_lt h1
    have hpu := path_unpath h1
    rw [h2] at hlt hpu
    refine ⟨_, List.mem_range.2 hlt, ?_⟩
    rw [Bool.and_eq_true, decide_eq_true_iff]
    refine ⟨h3, ?_⟩
    rw [hpu, List.take_append_of_le_length (by simp), List.take_of_length_le (by simp)]

section
variable {S C δ : Type} {I : Impl S C δ} {s : S} {M : Nat → Option δ}

theorem bits_exactMask {T : TreeSpec δ} {K : CursorRel C} (L : Lawful I s T K)
    (hc : ∀ i, i < width I.N ^ I.D → T.content (path (width I.N) I.D i) = M i)
    (hex : I.exact = true) {p : List Nat} (hp : ValidPath (width I.N) p) (hl : p.length < I.D)
    (j : Nat) : T.bits p j = exactMask (width I.N) I.D M p j := by
  have ms := maskSpec L.wf hc
  rw [Bool.eq_iff_iff, exactMask_iff hl]
  exact ⟨ms.exact hex p j hp hl, ms.below p j hl⟩

theorem move_path_valid {W D : Nat} {B : List Nat → Nat → Bool} {pos : Option (List Nat)} {m : Move}
    (hD : 1 ≤ D) (hv : ∀ p, pos = some p → ValidPath W p) (hl : m.Legal W D B pos) :
    ValidPath W (m.path pos) ∧ (m.path pos).length < D := by
  obtain ⟨hi, -, hn⟩ := hl
  unfold Move.path
  cases hlev : m.level with
  | zero => exact ⟨ValidPath.nil, by simp; omega⟩
  | succ n =>
    obtain ⟨hD, q, rfl, hq, -⟩ := hn n hlev
    refine ⟨ValidPath.append ((hv q rfl).take n) hi, ?_⟩
    simp [hq]; omega

theorem legalMoves_congr {W D : Nat} {B B' : List Nat → Nat → Bool} (hD : 1 ≤ D)
    (hB : ∀ p j, ValidPath W p → p.length < D → B p j = B' p j) :
    ∀ (ms : List Move) (pos : Option (List Nat)), (∀ p, pos = some p → ValidPath W p) →
      LegalMoves W D B pos ms → LegalMoves W D B' pos ms := by
  intro ms
  induction ms with
  | nil => intro _ _ _; trivial
  | cons m ms ih =>
    intro pos hv ⟨h1, h2⟩
    refine ⟨⟨h1.1, h1.2.1, fun n hn => ?_⟩, ih _ (fun p e => ?_) h2⟩
    · obtain ⟨g1, p, g2, g3, g4⟩ := h1.2.2 n hn
      refine ⟨g1, p, g2, g3, fun hc => ?_⟩
      rw [← hB _ _ ((hv p g2).take n) (by simp; omega)]
      exact g4 hc
    · simp only [Option.some.injEq] at e
      rw [← e]
      exact (move_path_valid hD hv h1).1

theorem masksAre_congr {N W D : Nat} {B B' : List Nat → Nat → Bool} (hD : 1 ≤ D)
    (hB : ∀ p j, ValidPath W p → p.length < D → B p j = B' p j) :
    ∀ (ms : List Move) (pos : Option (List Nat)) (masks : List Mask),
      (∀ p, pos = some p → ValidPath W p) → LegalMoves W D B pos ms →
      MasksAre N B masks (movePaths pos ms) → MasksAre N B' masks (movePaths pos ms) := by
  intro ms
  induction ms with
  | nil =>
    intro pos masks _ _ h
    cases masks <;> exact h
  | cons m ms ih =>
    intro pos masks hv hl h
    cases masks with
    | nil => exact h
    | cons a as =>
      obtain ⟨g1, g2⟩ := move_path_valid hD hv hl.1
      refine ⟨⟨h.1.1, fun j => (h.1.2 j).trans (hB _ j g1 g2)⟩, ih _ as (fun p e => ?_) hl.2 h.2⟩
      simp only [Option.some.injEq] at e
      rw [← e]; exact g1

theorem masksAre_unique {N : Nat} {B : List Nat → Nat → Bool} : ∀ (ms ms' : List Mask)
    (ps : List (List Nat)), MasksAre N B ms ps → MasksAre N B ms' ps → ms = ms' := by
  intro ms
  induction ms with
  | nil =>
    intro ms' ps h h'
    cases ps with
    | nil => cases ms' with
      | nil => rfl
      | cons _ _ => exact h'.elim
    | cons _ _ => exact h.elim
  | cons a as ih =>
    intro ms' ps h h'
    cases ps with
    | nil => exact h.elim
    | cons p ps =>
      cases ms' with
      | nil => exact h'.elim
      | cons b bs =>
        rw [ih bs ps h.2 h'.2, Mask.ext (h.1.1.trans h'.1.1.symm)
          fun j _ => (h.1.2 j).trans (h'.1.2 j).symm]

/-- **C50**, masks: in a tree with exact hierarchy the masks returned by any legal sequence of selects
are given by the stored keys alone (`exactMask`); being legal, too, is a matter of the keys. -/
theorem contract_masks (h : IsTree I s M) (hex : I.exact = true) :
    ∃ c0, I.new s = .ok c0 ∧
      ∀ moves, LegalMoves (width I.N) I.D (exactMask (width I.N) I.D M) none moves →
        ∃ masks c, runMoves I s c0 moves = .ok (masks, c) ∧
          MasksAre I.N (exactMask (width I.N) I.D M) masks (movePaths none moves) := by
  obtain ⟨T, K, L, hc⟩ := h
  obtain ⟨c0, e0, h0⟩ := L.new_ok
  refine ⟨c0, e0, fun moves hl => ?_⟩
  have hB := fun p j hp hl => bits_exactMask L hc hex (p := p) hp hl j
  have hl' := legalMoves_congr L.cfg.depth (fun p j hp hl => (hB p j hp hl).symm) moves none
    (fun p e => by cases e) hl
  obtain ⟨masks, c, e1, h1, -⟩ := moves_spec L moves c0 none h0 (fun p e => by cases e) hl'
  exact ⟨masks, c, e1, masksAre_congr L.cfg.depth hB moves none masks (fun p e => by cases e) hl' h1⟩

/-- **C50**: two trees with exact hierarchy of the same width and depth, of whatever types and
however they came about, with the same content: `get` agrees at every `usize`, iteration agrees, and
every legal sequence of selects returns the same masks. -/
theorem contract_same_content {S' C' : Type} {I' : Impl S' C' δ} {s' : S'} {M' : Nat → Option δ}
    (h : IsTree I s M) (h' : IsTree I' s' M') (hN : I.N = I'.N) (hD : I.D = I'.D)
    (hex : I.exact = true) (hex' : I'.exact = true)
    (hM : ∀ i, i < width I.N ^ I.D → M i = M' i) :
    (∀ i, I.get s i = I'.get s' i) ∧
    (∃ F, ∀ fuel, F ≤ fuel → ∀ n, I.iterRun s fuel n = I'.iterRun s' fuel n) ∧
    ∃ c0 c0', I.new s = .ok c0 ∧ I'.new s' = .ok c0' ∧
      ∀ moves, LegalMoves (width I.N) I.D (exactMask (width I.N) I.D M) none moves →
        ∃ masks c c', runMoves I s c0 moves = .ok (masks, c) ∧
          runMoves I' s' c0' moves = .ok (masks, c') := by
  have hE : exactMask (width I.N) I.D M = exactMask (width I'.N) I'.D M' := by
    funext p j
    unfold exactMask
    rw [← hN, ← hD, Bool.eq_iff_iff]
    simp only [List.any_eq_true, List.mem_range]
    constructor
    · rintro ⟨k, hk, g⟩; exact ⟨k, hk, by rw [← hM k hk]; exact g⟩
    · rintro ⟨k, hk, g⟩; exact ⟨k, hk, by rw [hM k hk]; exact g⟩
  refine ⟨fun i => ?_, ?_, ?_⟩
  · rw [tree_get h, tree_get h', ← hN, ← hD]
    by_cases hi : i < min (width I.N ^ I.D) (2 ^ 64 - 1)
    · rw [if_pos hi, if_pos hi, hM i (by omega)]
    · rw [if_neg hi, if_neg hi]
  · obtain ⟨F1, f1⟩ := contract_iter h
    obtain ⟨F2, f2⟩ := contract_iter h'
    refine ⟨max F1 F2, fun fuel hf n => ?_⟩
    rw [f1 fuel (by omega) n, f2 fuel (by omega) n, ← hN, ← hD]
    have : listing (width I.N ^ I.D) M = listing (width I.N ^ I.D) M' := by
      unfold listing
      refine filterMap_congr_mem fun k hk => ?_
      rw [hM k (List.mem_range.1 hk)]
    rw [this]
  · obtain ⟨c0, e0, h0⟩ := contract_masks h hex
    obtain ⟨c0', e0', h0'⟩ := contract_masks h' hex'
    refine ⟨c0, c0', e0, e0', fun moves hl => ?_⟩
    obtain ⟨masks, c, e1, m1⟩ := h0 moves hl
    have hl2 : LegalMoves (width I'.N) I'.D (exactMask (width I'.N) I'.D M') none moves := by
      rw [← hE, ← hN, ← hD]; exact hl
    obtain ⟨masks', c', e2, m2⟩ := h0' moves hl2
    rw [hE, hN] at m1
    have := masksAre_unique masks masks' _ m1 m2
    subst this
    exact ⟨masks, c, c', e1, e2⟩

end

/-- **C50** for containers: a DenseTree and a SparseTree (width 64) of the same depth after any
supported histories with the same resulting content cannot be told apart. -/
theorem C50_dense_sparse {α : Type} {D : Nat} {dflt : Option α} {ops : List (Dense.Op α)}
    {ops' : List (Sparse.Op α)} {t : Dense.DT α} {t' : Sparse.ST α}
    (h : DenseHistory D ops) (hr : DenseReached D ops t)
    (h' : SparseHistory 1 D dflt ops') (hr' : SparseReached 1 D dflt ops' t')
    (hM : ∀ k, k < 64 ^ D →
      (Dense.specRun emptyMap ops).1 k = (Sparse.specRun dflt emptyMap ops').1 k) :
    (∀ i, (Dense.impl α D).get t i = (Sparse.impl α 1 D).get t' i) ∧
    (∃ F, ∀ fuel, F ≤ fuel → ∀ n,
      (Dense.impl α D).iterRun t fuel n = (Sparse.impl α 1 D).iterRun t' fuel n) ∧
    ∃ c0 c0', (Dense.impl α D).new t = .ok c0 ∧ (Sparse.impl α 1 D).new t' = .ok c0' ∧
      ∀ moves, LegalMoves 64 D (exactMask 64 D (Dense.specRun emptyMap ops).1) none moves →
        ∃ masks c c', runMoves (Dense.impl α D) t c0 moves = .ok (masks, c) ∧
          runMoves (Sparse.impl α 1 D) t' c0' moves = .ok (masks, c') :=
  contract_same_content (dense_isTree h hr).isTree (sparse_isTree h' hr').isTree rfl rfl rfl rfl hM

/-- (The hypotheses hold for the histories `exOpsA`, `exOpsB` below.) -/
example : (do
    let t0 ← Dense.default Nat 2
    let r ← Dense.run 2 t0 [.insert 70 1, .insert 5 9, .insert 4095 3, .remove 70, .insert 5 2]
    (Dense.impl Nat 2).iterRun r.1 9 3 : R _) = .ok [some (5, 2), some (4095, 3), none] ∧
    (do
      let r ← Sparse.run 1 2 (Sparse.default Nat 1 2 none) [.insert 5 2, .insert 4095 3, .get 5]
      (Sparse.impl Nat 1 2).iterRun r.1 9 3 : R _) = .ok [some (5, 2), some (4095, 3), none] := by
  decide +kernel

/-- **C50**: the order of operations does not matter – two DenseTree histories with the same
resulting content. -/
theorem C50_dense_histories {α : Type} {D : Nat} {ops ops' : List (Dense.Op α)} {t t' : Dense.DT α}
    (h : DenseHistory D ops) (hr : DenseReached D ops t)
    (h' : DenseHistory D ops') (hr' : DenseReached D ops' t')
    (hM : ∀ k, k < 64 ^ D → (Dense.specRun emptyMap ops).1 k = (Dense.specRun emptyMap ops').1 k) :
    (∀ i, (Dense.impl α D).get t i = (Dense.impl α D).get t' i) ∧
    (∃ F, ∀ fuel, F ≤ fuel → ∀ n,
      (Dense.impl α D).iterRun t fuel n = (Dense.impl α D).iterRun t' fuel n) ∧
    ∃ c0 c0', (Dense.impl α D).new t = .ok c0 ∧ (Dense.impl α D).new t' = .ok c0' ∧
      ∀ moves, LegalMoves 64 D (exactMask 64 D (Dense.specRun emptyMap ops).1) none moves →
        ∃ masks c c', runMoves (Dense.impl α D) t c0 moves = .ok (masks, c) ∧
          runMoves (Dense.impl α D) t' c0' moves = .ok (masks, c') :=
  contract_same_content (dense_isTree h hr).isTree (dense_isTree h' hr').isTree rfl rfl rfl rfl hM

/-- Two different histories with the same content, one per container. -/
def exOpsA : List (Dense.Op Nat) :=
  [.insert 70 1, .insert 5 9, .insert 4095 3, .remove 70, .insert 5 2]
def exOpsB : List (Sparse.Op Nat) :=
  [.insert 5 2, .insert 4095 3, .get 5]

example : ∀ k, k < 64 ^ 2 → (Dense.specRun emptyMap exOpsA).1 k =
    (Sparse.specRun (none : Option Nat) emptyMap exOpsB).1 k := by
  intro k _
  simp only [exOpsA, exOpsB, Dense.specRun, Dense.Op.spec, Sparse.specRun, Sparse.Op.spec, put,
    emptyMap]
  by_cases h1 : k = 5
  · simp [h1]
  · by_cases h2 : k = 4095
    · simp [h2]
    · by_cases h3 : k = 70 <;> simp [h1, h2, h3]

example : DenseHistory 2 exOpsA := by
  refine .of_depth (by decide) (by decide) ?_
  intro op h
  simp only [exOpsA, List.mem_cons, List.not_mem_nil, or_false] at h
  rcases h with rfl | rfl | rfl | rfl | rfl <;> simp [Dense.Op.InRange]

example : SparseHistory 1 2 (none : Option Nat) exOpsB := by
  refine .of_small ⟨by decide, by decide, by decide⟩ (by decide) ?_
  intro op h
  simp only [exOpsB, List.mem_cons, List.not_mem_nil, or_false] at h
  rcases h with rfl | rfl | rfl <;> simp [Sparse.Op.Ok] <;> decide

/-- Descending to key 5's terminal node is a legal sequence of moves there. -/
example : LegalMoves 64 2 (exactMask 64 2 (Dense.specRun emptyMap exOpsA).1) none
    [⟨true, 0, 0⟩, ⟨false, 1, 0⟩] := by
  refine ⟨⟨by decide, fun _ => rfl, fun n h => by cases h⟩, ⟨by decide, fun h => (by cases h),
    fun n h => ?_⟩, trivial⟩
  cases h
  refine ⟨by decide, [], rfl, by decide, fun _ => ?_⟩
  rw [exactMask_iff (by decide)]
  exact ⟨[5], by intro x hx; simp at hx; rcases hx with rfl | rfl <;> decide, rfl, rfl⟩

end Hibit.Props
