import Verif.Props.Tree
/-!
# Property C69: trees written by the user

`HibitTree` and `HibitTreeCursor` are public traits (hibit_tree.rs:141-218, 284-321), so a user may
write a tree of his own. `TreeDocs` states what the documentation of the traits asks of such a tree,
purely in terms of calls and their results. It is proved to be equivalent to the contract the
crate's combinators and iterators need.
-/
namespace Hibit.Props
open Hibit

/-- The documented behaviour of a tree value `s` with content `M` (hibit_tree.rs:141-218, 284-321):
valid configuration, `data` and `data_unchecked` agree with `M`, and one mask per path such that any
legal sequence of selects on one cursor returns the masks of the selected paths, with
`data_unchecked` (and, if `x`, `data` after a checked select) of the cursor agreeing with `M` at a
terminal node. -/
structure TreeDocs (x : Bool) {S C δ : Type} (I : Impl S C δ) (s : S) (M : Nat → Option δ) : Prop where
  cfg : ValidCfg I.N I.D
  data : ∀ i, i < width I.N ^ I.D → I.data s i (path (width I.N) I.D i) = .ok (M i)
  dataU : ∀ i v, i < width I.N ^ I.D → M i = some v →
    I.dataU s i (path (width I.N) I.D i) = .ok v
  cursor : ∃ B, MaskSpec (width I.N) I.D I.exact M B ∧ ∃ c0, I.new s = .ok c0 ∧
    ∀ moves, LegalMoves (width I.N) I.D B none moves →
      ∃ masks c, runMoves I s c0 moves = .ok (masks, c) ∧
        MasksAre I.N B masks (movePaths none moves) ∧
        ∀ p, (movePaths none moves).getLast? = some p → p.length + 1 = I.D →
          (∀ k v, k < width I.N → M (unpath (width I.N) (p ++ [k])) = some v →
            I.curDataU c s k = .ok v) ∧
          (x = true → ∀ m, moves.getLast? = some m → m.checked = true → ∀ k, k < width I.N →
            I.curData c s k = .ok (M (unpath (width I.N) (p ++ [k]))))

section
variable {S C δ : Type} {I : Impl S C δ} {s : S} {M : Nat → Option δ}

/-- The position after a sequence of moves. -/
def endPos : Option (List Nat) → List Move → Option (List Nat)
  | pos, [] => pos
  | pos, m :: ms => endPos (some (m.path pos)) ms

theorem endPos_some : ∀ (ms : List Move) (p : List Nat), ∃ q, endPos (some p) ms = some q
  | [], p => ⟨p, rfl⟩
  | m :: ms, p => endPos_some ms _

theorem endPos_last : ∀ (ms : List Move) (pos : Option (List Nat)), ms ≠ [] →
    (movePaths pos ms).getLast? = endPos pos ms
  | [], _, h => (h rfl).elim
  | [m], pos, _ => rfl
  | m :: m' :: ms, pos, _ => by
    have := endPos_last (m' :: ms) (some (m.path pos)) (by simp)
    rw [endPos, ← this]
    simp [movePaths]

theorem endPos_concat : ∀ (ms : List Move) (pos : Option (List Nat)) (m : Move),
    endPos pos (ms ++ [m]) = some (m.path (endPos pos ms))
  | [], _, _ => rfl
  | a :: ms, pos, m => by
    show endPos (some (a.path pos)) (ms ++ [m]) = _
    rw [endPos_concat ms]; rfl

theorem movePaths_concat : ∀ (ms : List Move) (pos : Option (List Nat)) (m : Move),
    movePaths pos (ms ++ [m]) = movePaths pos ms ++ [m.path (endPos pos ms)]
  | [], _, _ => rfl
  | a :: ms, pos, m => by
    show a.path pos :: movePaths (some (a.path pos)) (ms ++ [m]) = _
    rw [movePaths_concat ms]; rfl

theorem legal_concat {W D : Nat} {B : List Nat → Nat → Bool} : ∀ (ms : List Move)
    (pos : Option (List Nat)) (m : Move), LegalMoves W D B pos ms →
    m.Legal W D B (endPos pos ms) → LegalMoves W D B pos (ms ++ [m])
  | [], _, _, _, h => ⟨h, trivial⟩
  | a :: ms, pos, m, h1, h2 => ⟨h1.1, legal_concat ms _ m h1.2 h2⟩

/-- One select call. -/
def Move.run (I : Impl S C δ) (s : S) (c : C) (m : Move) : R (Mask × C) :=
  if m.checked then I.select c s m.level m.index else I.selectU c s m.level m.index

theorem runMoves_cons (c : C) (m : Move) (ms : List Move) :
    runMoves I s c (m :: ms) =
      (Move.run I s c m).bind fun r => (runMoves I s r.2 ms).bind fun q => .ok (r.1 :: q.1, q.2) := by
  cases h : m.checked <;> simp only [runMoves, Move.run, h, if_true, Bool.false_eq_true, if_false] <;>
    rfl

theorem runMoves_concat : ∀ (ms : List Move) (c : C) (m : Move),
    runMoves I s c (ms ++ [m]) = (runMoves I s c ms).bind fun r =>
      (Move.run I s r.2 m).bind fun q => .ok (r.1 ++ [q.1], q.2)
  | [], c, m => by
    rw [List.nil_append, runMoves_cons]; rfl
  | a :: ms, c, m => by
    rw [List.cons_append, runMoves_cons, runMoves_cons]
    cases Move.run I s c a with
    | error e => rfl
    | ok r =>
      show (runMoves I s r.2 (ms ++ [m])).bind _ = ((runMoves I s r.2 ms).bind _).bind _
      rw [runMoves_concat ms r.2 m]
      cases runMoves I s r.2 ms with
      | error e => rfl
      | ok r2 =>
        show ((Move.run I s r2.2 m).bind _).bind _ = (Move.run I s r2.2 m).bind _
        cases Move.run I s r2.2 m <;> rfl

theorem endPos_valid {W D : Nat} {B : List Nat → Nat → Bool} (hD : 1 ≤ D) : ∀ (ms : List Move)
    (pos : Option (List Nat)), LegalMoves W D B pos ms →
    (∀ p, pos = some p → ValidPath W p ∧ p.length < D) →
    ∀ p, endPos pos ms = some p → ValidPath W p ∧ p.length < D
  | [], pos, _, h, p, e => h p e
  | m :: ms, pos, hl, h, p, e => by
    refine endPos_valid hD ms _ hl.2 ?_ p e
    intro p' e'
    simp only [Option.some.injEq] at e'
    rw [← e']
    obtain ⟨hi, -, hn⟩ := hl.1
    unfold Move.path
    cases hlev : m.level with
    | zero => exact ⟨ValidPath.nil, hD⟩
    | succ n =>
      obtain ⟨hD', q, rfl, hq, -⟩ := hn n hlev
      refine ⟨ValidPath.append ((h q rfl).1.take n) hi, ?_⟩
      simp [hq]; omega

theorem masksAre_last {N : Nat} {B : List Nat → Nat → Bool} : ∀ (ms : List Mask) (ps : List (List Nat))
    (m : Mask) (p : List Nat), MasksAre N B (ms ++ [m]) (ps ++ [p]) →
    m.length = N ∧ ∀ j, m.bit j = B p j
  | [], [], m, p, h => h.1
  | [], a :: ps, m, p, h => by
    cases ps <;> exact h.2.elim
  | a :: ms, [], m, p, h => by
    cases ms <;> exact h.2.elim
  | a :: ms, b :: ps, m, p, h => masksAre_last ms ps m p h.2

theorem getLast?_concat_move (ms : List Move) (m : Move) : (ms ++ [m]).getLast? = some m := by simp

open Classical in
/-- Whoever keeps to the documentation satisfies the contract used by iterators and combinators. -/
theorem docs_isTree {x : Bool} (h : TreeDocs x I s M) :
    IsTree I s M ∧ (x = true → IsTreeC I s M) := by
  obtain ⟨cfg, hdata, hdataU, B, hB, c0, e0, hcur⟩ := h
  have hD : 1 ≤ I.D := cfg.depth
  have hW : 0 < width I.N := by
    rcases cfg.words with e | e | e <;> rw [e] <;> decide
  let T : TreeSpec δ :=
    { bits := fun p j => decide (ValidPath (width I.N) p ∧ p.length < I.D ∧ j < width I.N) && B p j
      content := fun p => M (unpath (width I.N) p) }
  let K : CursorRel C :=
    { inv := fun c => ∃ ms masks, LegalMoves (width I.N) I.D B none ms ∧
        runMoves I s c0 ms = .ok (masks, c)
      pos := fun c p => ∃ ms masks q k, LegalMoves (width I.N) I.D B none ms ∧
        runMoves I s c0 ms = .ok (masks, c) ∧ endPos none ms = some q ∧ p = q.take k
      posC := fun c p => ∃ ms m masks, LegalMoves (width I.N) I.D B none (ms ++ [m]) ∧
        runMoves I s c0 (ms ++ [m]) = .ok (masks, c) ∧ endPos none (ms ++ [m]) = some p ∧
        m.checked = true }
  have hT : ∀ p j, T.bits p j = true ↔
      (ValidPath (width I.N) p ∧ p.length < I.D ∧ j < width I.N) ∧ B p j = true := by
    intro p j; simp [T]
  have hbits : ∀ (m : Mask) p, ValidPath (width I.N) p → p.length < I.D → m.length = I.N →
      (∀ j, m.bit j = B p j) → ∀ j, m.bit j = T.bits p j := by
    intro m p hp hl hm hb j
    by_cases hj : j < width I.N
    · rw [hb j]; simp [T, hp, hl, hj]
    · rw [Hibit.bit_of_ge (by rw [hm]; unfold width at hj; omega)]
      have : ¬ T.bits p j = true := fun e => hj ((hT p j).1 e).1.2.2
      cases e : T.bits p j with
      | false => rfl
      | true => exact (this e).elim
  have hval : ∀ ms p, LegalMoves (width I.N) I.D B none ms → endPos none ms = some p →
      ValidPath (width I.N) p ∧ p.length < I.D := fun ms p hl e =>
    endPos_valid hD ms none hl (fun p e => by cases e) p e
  -- one more legal select
  have step : ∀ ms masks c m, LegalMoves (width I.N) I.D B none ms →
      runMoves I s c0 ms = .ok (masks, c) → m.Legal (width I.N) I.D B (endPos none ms) →
      ∃ mask c', (if m.checked then I.select c s m.level m.index
          else I.selectU c s m.level m.index) = .ok (mask, c') ∧ mask.length = I.N ∧
        (∀ j, mask.bit j = T.bits (m.path (endPos none ms)) j) ∧
        LegalMoves (width I.N) I.D B none (ms ++ [m]) ∧
        runMoves I s c0 (ms ++ [m]) = .ok (masks ++ [mask], c') ∧
        endPos none (ms ++ [m]) = some (m.path (endPos none ms)) := by
    intro ms masks c m hl hr hm
    have hl' := legal_concat ms none m hl hm
    obtain ⟨masks', c', e1, h1, -⟩ := hcur _ hl'
    have e2 := e1
    rw [runMoves_concat, hr] at e2
    replace e2 : ((Move.run I s c m).bind fun q => .ok (masks ++ [q.1], q.2)) =
      .ok (masks', c') := e2
    obtain ⟨⟨mask, c''⟩, e3, e4⟩ := bind_inv e2
    simp only [Except.ok.injEq, Prod.mk.injEq] at e4
    obtain ⟨rfl, rfl⟩ := e4
    rw [movePaths_concat] at h1
    obtain ⟨g1, g2⟩ := masksAre_last _ _ _ _ h1
    have hend := endPos_concat ms none m
    obtain ⟨v1, v2⟩ := hval _ _ hl' hend
    exact ⟨mask, c'', e3, g1, hbits mask _ v1 v2 g1 g2, hl', e1, hend⟩
  have wf : SpecWf (width I.N) I.D I.exact T :=
    { bits_lt := fun p i e => ((hT p i).1 e).1.2.2
      terminal := by
        intro p i hp hl hi
        have : T.bits p i = B p i := by simp [T, hp, hi]; intro h; omega
        rw [this]; exact hB.terminal p i hp hl hi
      upward := by
        intro p i j hp hi hl hb
        refine (hT p i).2 ⟨⟨hp, by omega, hi⟩, ?_⟩
        obtain ⟨⟨h1, h2, h3⟩, h4⟩ := (hT _ _).1 hb
        cases e : B p i with
        | true => rfl
        | false =>
          have := hB.absent p i [] j h1 h2 e
          rw [this] at h4; cases h4
      exact_child := by
        intro hex p i hp hl hb
        obtain ⟨⟨-, h2, h3⟩, h4⟩ := (hT _ _).1 hb
        obtain ⟨q, g1, g2, g3⟩ := hB.exact hex p i hp h2 h4
        cases q with
        | nil => simp at g2; omega
        | cons y q =>
          have hy : y < width I.N := g1 y (by simp)
          have hpi := ValidPath.append hp h3
          refine ⟨y, (hT _ _).2 ⟨⟨hpi, by simp; omega, hy⟩, ?_⟩⟩
          exact hB.below _ y (by simp; omega) ⟨q, by simpa using g1, by simpa using g2, by simpa using g3⟩ }
  have L : Lawful I s T K :=
    { cfg := cfg
      wf := wf
      data_eq := by
        intro p hp hl
        have h1 := unpath_lt hp
        have h2 := path_unpath hp
        rw [hl] at h1 h2
        have := hdata _ h1
        rw [h2] at this
        exact this
      dataU_eq := by
        intro p d hp hl hd
        have h1 := unpath_lt hp
        have h2 := path_unpath hp
        rw [hl] at h1 h2
        have := hdataU _ d h1 hd
        rw [h2] at this
        exact this
      new_ok := ⟨c0, e0, [], [], trivial, rfl⟩
      pos_inv := fun c p ⟨ms, masks, _, _, h1, h2, _⟩ => ⟨ms, masks, h1, h2⟩
      posC_pos := fun c p ⟨ms, m, masks, h1, h2, h3, _⟩ =>
        ⟨ms ++ [m], masks, p, p.length, h1, h2, h3, by simp⟩
      pos_take := fun c p k ⟨ms, masks, q, k', h1, h2, h3, h4⟩ =>
        ⟨ms, masks, q, min k k', h1, h2, h3, by rw [h4, List.take_take]⟩
      select_root := by
        rintro c i ⟨ms, masks, h1, h2⟩ rfl
        obtain ⟨mask, c', e, g1, g2, g3, g4, g5⟩ := step ms masks c ⟨true, 0, 0⟩ h1 h2
          ⟨hW, fun _ => rfl, fun n e => by cases e⟩
        exact ⟨mask, c', e, g1, g2, ms, _, _, g3, g4, g5, rfl⟩
      selectU_root := by
        rintro c i ⟨ms, masks, h1, h2⟩ rfl
        obtain ⟨mask, c', e, g1, g2, g3, g4, g5⟩ := step ms masks c ⟨false, 0, 0⟩ h1 h2
          ⟨hW, fun _ => rfl, fun n e => by cases e⟩
        exact ⟨mask, c', e, g1, g2, _, _, [], 0, g3, g4, g5, rfl⟩
      select_node := by
        rintro c p i ⟨ms, masks, q, k, h1, h2, h3, rfl⟩ hp hi hl
        have hk : (q.take k).length ≤ q.length := by simp [Nat.min_le_right]
        obtain ⟨mask, c', e, g1, g2, g3, g4, g5⟩ := step ms masks c ⟨true, (q.take k).length + 1, i⟩ h1 h2
          ⟨hi, fun e => by simp at e, fun n e => by
            simp only [Nat.add_right_cancel_iff] at e
            exact ⟨by omega, q, h3, by omega, fun e => by cases e⟩⟩
        have hpath : Move.path (endPos none ms) ⟨true, (q.take k).length + 1, i⟩ = q.take k ++ [i] := by
          have htake : q.take (q.take k).length = q.take k := by
            simp [List.take_eq_take_iff]
          simp only [Move.path, h3, Option.getD_some, htake]
        rw [hpath] at g2 g5
        exact ⟨mask, c', e, g1, g2, ms, _, _, g3, g4, g5, rfl⟩
      selectU_node := by
        rintro c p i ⟨ms, masks, q, k, h1, h2, h3, rfl⟩ hp hi hl hb
        have hk : (q.take k).length ≤ q.length := by simp [Nat.min_le_right]
        have htake : q.take (q.take k).length = q.take k := by
          simp [List.take_eq_take_iff]
        obtain ⟨mask, c', e, g1, g2, g3, g4, g5⟩ := step ms masks c ⟨false, (q.take k).length + 1, i⟩ h1 h2
          ⟨hi, fun e => by simp at e, fun n e => by
            simp only [Nat.add_right_cancel_iff] at e
            refine ⟨by omega, q, h3, by omega, fun _ => ?_⟩
            rw [← e, htake]; exact ((hT _ _).1 hb).2⟩
        have hpath : Move.path (endPos none ms) ⟨false, (q.take k).length + 1, i⟩ = q.take k ++ [i] := by
          simp only [Move.path, h3, Option.getD_some, htake]
        rw [hpath] at g2 g5
        exact ⟨mask, c', e, g1, g2, ms ++ [_], _, _, (q.take k ++ [i]).length, g3, g4, g5, List.take_length.symm⟩
      curDataU_eq := by
        rintro c p i d ⟨ms, masks, q, k, h1, h2, h3, rfl⟩ hp hi hl hd
        obtain ⟨v1, v2⟩ := hval _ _ h1 h3
        have hq : q.take k = q := by
          apply List.take_of_length_le
          simp at hl; omega
        rw [hq] at hd hl
        obtain ⟨masks', c', e1, -, h5⟩ := hcur ms h1
        rw [h2] at e1
        cases e1
        have hne : ms ≠ [] := by rintro rfl; cases h3
        exact (h5 q (by rw [endPos_last ms none hne, h3]) hl).1 i d hi hd }
  have hc : ∀ i, i < width I.N ^ I.D → T.content (path (width I.N) I.D i) = M i := by
    intro i hi
    show M (unpath _ (path _ _ i)) = M i
    rw [unpath_path _ _ _ hi]
  refine ⟨⟨T, K, L, hc⟩, fun hx => ⟨T, K, { toLawful := L, curData_eq := ?_ }, hc⟩⟩
  rintro c p i ⟨ms, m, masks, h1, h2, h3, hch⟩ hp hi hl
  obtain ⟨masks', c', e1, -, h5⟩ := hcur _ h1
  rw [h2] at e1
  cases e1
  exact (h5 p (by rw [endPos_last _ none (by simp), h3]) hl).2 hx m (by simp) hch i hi

theorem isTree_docs (h : IsTree I s M) : TreeDocs false I s M := by
  have hcur := contract_cursor h
  obtain ⟨T, K, L, hc⟩ := h
  refine ⟨L.cfg, ?_, ?_, ?_⟩
  · intro i hi
    have := L.data_eq _ (path_lt I.D hi) (path_length _ _ _)
    rwa [unpath_path _ _ _ hi, hc i hi] at this
  · intro i v hi hv
    have := L.dataU_eq _ v (path_lt I.D hi) (path_length _ _ _) (by rw [hc i hi, hv])
    rwa [unpath_path _ _ _ hi] at this
  · obtain ⟨B, hB, c0, e0, h0⟩ := hcur
    refine ⟨B, hB, c0, e0, fun ms hl => ?_⟩
    obtain ⟨masks, c, e1, h1, h2⟩ := h0 ms hl
    exact ⟨masks, c, e1, h1, fun p hp hd => ⟨h2 p hp hd, fun e => by cases e⟩⟩

theorem isTreeC_docs (h : IsTreeC I s M) : TreeDocs true I s M := by
  have hd := isTree_docs h.isTree
  refine ⟨hd.cfg, hd.data, hd.dataU, ?_⟩
  obtain ⟨T, K, L, hc⟩ := h
  obtain ⟨c0, e0, h0⟩ := L.new_ok
  refine ⟨T.bits, maskSpec L.wf hc, c0, e0, fun moves hl => ?_⟩
  obtain ⟨masks, c, e1, h1, h2⟩ := moves_spec L.toLawful moves c0 none h0 (fun p e => by cases e) hl
  refine ⟨masks, c, e1, h1, fun p hp hd => ?_⟩
  cases moves with
  | nil => simp [movePaths] at hp
  | cons a as =>
    obtain ⟨g1, g2, g3⟩ := h2 ((a :: as).getLast (by simp)) (a :: as).dropLast p
      (List.dropLast_concat_getLast (by simp)).symm hp
    refine ⟨fun k v hk hv => L.curDataU_eq c p k v g1 g2 hk hd
      (by rw [content_of hc (ValidPath.append g2 hk) (by simpa using hd), hv]),
      fun _ m hm hch k hk => ?_⟩
    rw [List.getLast?_eq_some_getLast (by simp), Option.some.injEq] at hm
    rw [L.curData_eq c p k (g3 (by rw [hm]; exact hch)) g2 hk hd,
      content_of hc (ValidPath.append g2 hk) (by simpa using hd)]

end

/-! ### Two trees that are not in the crate -/

/-- A generative tree with an element at every index, computed on demand by `f`; its cursor is the
list of selected level indices. -/
def everywhere {δ : Type} (N D : Nat) (f : Nat → δ) : Impl Unit (List Nat) δ where
  N := N
  D := D
  exact := true
  data _ i _ := .ok (some (f i))
  dataU _ i _ := .ok (f i)
  new _ := .ok []
  select c _ level i := .ok (List.replicate N (BitVec.allOnes 64),
    match level with | 0 => [] | n + 1 => c.take n ++ [i])
  selectU c _ level i := .ok (List.replicate N (BitVec.allOnes 64),
    match level with | 0 => [] | n + 1 => c.take n ++ [i])
  curData c _ k := .ok (some (f (unpath (width N) (c ++ [k]))))
  curDataU c _ k := .ok (f (unpath (width N) (c ++ [k])))

theorem ones_bit (N j : Nat) :
    Mask.bit (List.replicate N (BitVec.allOnes 64)) j = decide (j < width N) := by
  unfold Mask.bit width
  rw [List.getD_eq_getElem?_getD, List.getElem?_replicate]
  by_cases h : j < 64 * N
  · rw [if_pos (by omega)]
    show (BitVec.allOnes 64).getLsbD (j % 64) = _
    rw [BitVec.getLsbD_allOnes]
    simp [Nat.mod_lt, h]
  · rw [if_neg (by omega)]
    simp [h]

theorem everywhere_docs {δ : Type} {N D : Nat} (hc : ValidCfg N D) (f : Nat → δ) :
    TreeDocs true (everywhere N D f) () (fun i => some (f i)) := by
  have hW : 0 < width N := by
    rcases hc.words with e | e | e <;> rw [e] <;> decide
  refine ⟨hc, fun i _ => rfl, fun i v _ e => by cases e; rfl,
    fun _ j => decide (j < width N), ?_, [], rfl, ?_⟩
  · refine ⟨fun p j _ _ hj => decide_eq_true hj, ?_, ?_, ?_⟩
    · rintro p j - ⟨q, h, -, -⟩
      have : j < width N := h j (by simp)
      simp [this]
    · intro p i q j h _ hb
      have : i < width N := h i (by simp)
      simp [this] at hb
    · intro _ p j hp hl hj
      have hj' : j < width N := by simpa using hj
      have hl' : p.length < D := hl
      refine ⟨List.replicate (D - (p.length + 1)) 0, ?_, ?_, rfl⟩
      · intro y hy
        simp only [List.append_assoc, List.cons_append, List.nil_append, List.mem_append,
          List.mem_cons, List.mem_replicate] at hy
        rcases hy with h | h | ⟨-, h⟩
        · exact hp y h
        · rw [h]; exact hj'
        · rw [h]; exact hW
      · simp; show _ = D; omega
  · -- the cursor is the position
    have key : ∀ (ms : List Move) (c : List Nat) (pos : Option (List Nat)),
        (∀ p, pos = some p → c = p) → LegalMoves (width N) D (fun _ j => decide (j < width N)) pos ms →
        ∃ masks c', runMoves (everywhere N D f) () c ms = .ok (masks, c') ∧
          MasksAre N (fun _ j => decide (j < width N)) masks (movePaths pos ms) ∧
          ∀ p, endPos pos ms = some p → c' = p := by
      intro ms
      induction ms with
      | nil => intro c pos h _; exact ⟨[], c, rfl, trivial, h⟩
      | cons m ms ih =>
        intro c pos h hl
        have hr : Move.run (everywhere N D f) () c m =
            .ok (List.replicate N (BitVec.allOnes 64), m.path pos) := by
          obtain ⟨ch, level, index⟩ := m
          obtain ⟨-, -, hn⟩ := hl.1
          cases level with
          | zero => cases ch <;> rfl
          | succ n =>
            obtain ⟨-, p, rfl, -, -⟩ := hn n rfl
            rw [h p rfl]
            cases ch <;> rfl
        obtain ⟨masks, c', e1, h1, h2⟩ := ih (m.path pos) (some (m.path pos))
          (fun p e => by simpa using e) hl.2
        refine ⟨List.replicate N (BitVec.allOnes 64) :: masks, c', ?_, ⟨⟨List.length_replicate, ones_bit N⟩, h1⟩, h2⟩
        rw [runMoves_cons, hr]
        show (runMoves _ _ _ ms).bind _ = _
        rw [e1]; rfl
    intro ms hl
    obtain ⟨masks, c, e1, h1, h2⟩ := key ms [] none (fun p e => by cases e) hl
    refine ⟨masks, c, e1, h1, fun p hp _ => ?_⟩
    have hne : ms ≠ [] := by rintro rfl; cases hp
    rw [endPos_last ms none hne] at hp
    rw [h2 p hp]
    exact ⟨fun k v _ e => by cases e; rfl, fun _ m _ _ k _ => rfl⟩

end Hibit.Props
