import Verif.Sparse.History
/-!
# SparseTree: which blocks an operation writes
-/
namespace Hibit.Sparse
open Hibit

/-- `L'` differs from `L` at most in the block at position `a`, and has `g` blocks more. -/
def Diff (a g : Nat) (L L' : Level) : Prop :=
  L'.blocks.length = L.blocks.length + g ∧
    ∀ b, b < L.blocks.length → b ≠ a → L'.blocks[b]? = L.blocks[b]?

theorem Diff.refl (a : Nat) (L : Level) : Diff a 0 L L := ⟨rfl, fun _ _ _ => rfl⟩

theorem Diff.trans {a g : Nat} {L L1 L2 : Level} (h : Diff a g L L1) (h' : Diff a 0 L1 L2) :
    Diff a g L L2 :=
  ⟨by rw [h'.1, h.1]; rfl, fun b hb hne => by
    rw [h'.2 b (by rw [h.1]; omega) hne, h.2 b hb hne]⟩

theorem Diff.set (L : Level) (a : Nat) (b : Block) (r : Word) (s : Bool) :
    Diff a 0 L ⟨s, L.blocks.set a b, r⟩ :=
  ⟨by simp, fun c _ hne => by simp only; rw [List.getElem?_set_ne (fun e => hne e.symm)]⟩

theorem getP_inv {β : Type} {l : List β} {i : Nat} {x : β} (h : getP l i = .ok x) :
    l[i]? = some x := by
  unfold getP at h
  split at h
  · next e => cases h; exact e
  · cases h

theorem insertEmpty_diff {N : Nat} {L L' : Level} {new : Nat} (h : L.insertEmpty N = .ok (new, L')) :
    ∃ g, g ≤ 1 ∧ Diff new g L L' := by
  unfold Level.insertEmpty at h
  split at h
  · cases h
  · obtain ⟨⟨o, L1⟩, e1, h⟩ := bind_inv h
    unfold Level.popEmpty at e1
    split at e1
    · cases e1
      cases h
      exact ⟨1, Nat.le_refl _, by simp, fun b hb _ => by simp only; rw [List.getElem?_append_left hb]⟩
    · obtain ⟨b, -, e1⟩ := bind_inv e1
      obtain ⟨next, -, e1⟩ := bind_inv e1
      obtain ⟨mask, -, e1⟩ := bind_inv e1
      obtain ⟨blocks, e2, e1⟩ := bind_inv e1
      obtain ⟨rfl, -⟩ := setU_inv e2
      cases e1
      cases h
      exact ⟨0, by omega, Diff.set L _ _ _ _⟩

/-- What one step of the descent writes. -/
theorem insertStep_cost {N n bi bi' : Nat} {P : List Nat} {lv lv' : List Level} {f : Bool}
    (h : insertStep N P (lv, bi) n = .ok ((lv', bi'), f)) :
    ∃ L b i next, P[n]? = some i ∧ lv[n]? = some L ∧ L.blocks[bi]? = some b ∧
      b.getOrZero i = .ok next ∧
      ((next ≠ 0 ∧ lv' = lv) ∨ (next = 0 ∧ ∃ L' L1 L1' g, lv[n + 1]? = some L1 ∧ g ≤ 1 ∧
        Diff bi' g L1 L1' ∧ Diff bi 0 L L' ∧ lv' = (lv.set (n + 1) L1').set n L')) := by
  unfold insertStep at h
  obtain ⟨i, e1, h⟩ := bind_inv h
  obtain ⟨L, e2, h⟩ := bind_inv h
  obtain ⟨b, e3, h⟩ := bind_inv h
  obtain ⟨next, e4, h⟩ := bind_inv h
  refine ⟨L, b, i, next, getP_inv e1, getP_inv e2, getU_inv e3, e4, ?_⟩
  split at h
  · next h0 =>
    obtain ⟨L1, f1, h⟩ := bind_inv h
    obtain ⟨⟨new, L1'⟩, f2, h⟩ := bind_inv h
    obtain ⟨L', f3, h⟩ := bind_inv h
    obtain ⟨b1, f4, h⟩ := bind_inv h
    obtain ⟨b2, f5, h⟩ := bind_inv h
    obtain ⟨blocks, f6, h⟩ := bind_inv h
    obtain ⟨rfl, -⟩ := setU_inv f6
    obtain ⟨g, g1, g2⟩ := insertEmpty_diff f2
    have f3' := getP_inv f3
    simp only at f3'
    rw [List.getElem?_set_ne (by omega), getP_inv e2] at f3'
    cases f3'
    cases h
    exact .inr ⟨h0, _, L1, L1', g, getP_inv f1, g1, g2, Diff.set L _ _ _ _, rfl⟩
  · next h0 =>
    cases h
    exact .inl ⟨h0, rfl⟩

section
variable {α : Type} {N D : Nat} {cap : Nat → Nat} {lv : List Level} {B : List Nat → Nat}

theorem LvRep.child (H : LvRep N D cap lv B none) {P : List Nat} (hP : ValidPath (width N) P)
    (hPl : P.length = D) {n : Nat} {L : Level} {b : Block} {i next : Nat}
    (hi : P[n]? = some i) (hL : lv[n]? = some L) (hb : L.blocks[B (P.take n)]? = some b)
    (hg : b.getOrZero i = .ok next) : next = B (P.take (n + 1)) := by
  have hn := (List.getElem?_eq_some_iff.1 hi).1
  have hpl : (P.take n).length = n := by simp; omega
  obtain ⟨b', hb', hbI⟩ := H.block (p := P.take n) (hP.take n) (by rw [hpl]; exact hL)
  rw [hb] at hb'
  cases hb'
  have hc := hbI.get (i := i) (hP _ (List.mem_of_getElem? hi)) (by simp)
  rw [← take_succ_of_getElem? hi, hg] at hc
  simpa using hc

/-- What the descent has written after `n` steps. -/
theorem insertWalk_cost (hN : 0 < N) (H : LvRep N D cap lv B none) {P : List Nat}
    (hP : ValidPath (width N) P) (hPl : P.length = D)
    (hroom : ∀ n, n + 1 < D → B (P.take (n + 1)) = 0 →
      liveCount (width N) (n + 1) B + 2 ≤ cap (n + 1))
    (hcap : ∀ n, n + 1 < D → cap (n + 1) ≤ 2 ^ idxBits n) :
    ∀ n, n + 1 ≤ D → ∃ lv' B', visitList (insertStep N P) (List.range n) (lv, 0) =
        .ok ((lv', B' (P.take n)), false) ∧
      LvRep N D cap lv' B' none ∧ (n = 0 ∨ B' (P.take n) ≠ 0) ∧
      (∀ q, (∀ m, 1 ≤ m → m ≤ n → q ≠ P.take m) → B' q = B q) ∧
      (∀ q, B q ≠ 0 → B' q = B q) ∧
      ∀ m L, lv[m]? = some L → ∃ L', lv'[m]? = some L' ∧
        (B (P.take (m + 1)) ≠ 0 → L' = L) ∧ (n < m → L' = L) ∧
        (m = n → (m = 0 ∨ B (P.take m) ≠ 0) → L' = L) ∧
        ∃ a g, g ≤ 1 ∧ Diff a g L L' ∧ (m = n → a = B' (P.take n)) ∧ (m = 0 → g = 0) ∧
          (B (P.take m) ≠ 0 → g = 0) := by
  intro n
  induction n with
  | zero =>
    intro _
    exact ⟨lv, B, by simp [visitList, H.root], H, .inl rfl, fun _ _ => rfl, fun _ _ => rfl,
      fun m L hL => ⟨L, hL, fun _ => rfl, fun _ => rfl, fun _ _ => rfl, B (P.take 0), 0, by omega, Diff.refl _ _, fun _ => rfl,
        fun _ => rfl, fun _ => rfl⟩⟩
  | succ n ih =>
    intro hn
    obtain ⟨lv1, B1, e1, H1, hl1, hs1, hz1, hc1⟩ := ih (by omega)
    have htne : ∀ m, m ≤ n → P.take (n + 1) ≠ P.take m := by
      intro m hm e
      have : (P.take (n + 1)).length = (P.take m).length := by rw [e]
      simp at this; omega
    have hsame : B1 (P.take (n + 1)) = B (P.take (n + 1)) :=
      hs1 _ (fun m _ h2 => htne m h2)
    have hcount : liveCount (width N) (n + 1) B1 = liveCount (width N) (n + 1) B := by
      unfold liveCount
      congr 1
      apply List.filter_congr
      intro x _
      rw [hs1]
      intro m h1 h2 e
      have : (path (width N) (n + 1) x).length = (P.take m).length := by rw [e]
      simp at this; omega
    obtain ⟨lv2, B2, e2, H2, hl2, hs2⟩ := insertStep_spec hN H1 hP hPl (n := n) (by omega) hl1
      (by rw [hsame, hcount]; exact hroom n (by omega)) (hcap n (by omega))
    refine ⟨lv2, B2, ?_, H2, .inr hl2, ?_, ?_, ?_⟩
    · rw [List.range_succ, visitList_append, e1]
      simp only [bind_ok, Bool.false_eq_true, if_false, visitList, e2]
    · intro q hq
      rw [hs2 q (.inl (hq (n + 1) (by omega) (by omega))), hs1 q (fun m g1 g2 => hq m g1 (by omega))]
    · intro q hq
      rw [hs2 q (.inr (by rw [hz1 q hq]; exact hq))]; exact hz1 q hq
    · intro m L hL
      obtain ⟨L', hL', c1, c2, c3, a, g, c4, c5, c6, c7, c8⟩ := hc1 m L hL
      obtain ⟨Ln, b, i, next, d1, d2, d3, d4, d5⟩ := insertStep_cost e2
      have hnext : next = B (P.take (n + 1)) := by
        rw [H1.child hP hPl d1 d2 d3 d4, hsame]
      have hB2 : ∀ q, q.length ≤ n → B2 q = B1 q := by
        intro q hq
        apply hs2 q
        left
        rintro rfl
        simp at hq; omega
      rcases d5 with ⟨d5, rfl⟩ | ⟨d5, Ln', L1, L1', g1, d6, d7, d8, d9, rfl⟩
      · rw [hnext] at d5
        by_cases hm : m = n + 1
        · have h := c2 (by omega)
          subst h
          exact ⟨L', hL', c1, fun _ => rfl, fun _ _ => rfl, B2 (P.take (n + 1)), 0, by omega, Diff.refl _ _,
            fun _ => rfl, fun _ => rfl, fun _ => rfl⟩
        · exact ⟨L', hL', c1, fun h => c2 (by omega), fun h => absurd h hm, a, g, c4, c5,
            fun h => absurd h hm, c7, c8⟩
      · rw [hnext] at d5
        by_cases hm : m = n + 1
        · subst hm
          have h := c2 (by omega)
          subst h
          rw [hL'] at d6
          cases d6
          refine ⟨L1', ?_, ?_, fun h => by omega, ?_, B2 (P.take (n + 1)), g1, d7, d8, fun _ => rfl,
            fun h => by omega, fun h => absurd d5 h⟩
          · rw [List.getElem?_set_ne (by omega), List.getElem?_set_self (List.getElem?_eq_some_iff.1 hL').1]
          · intro h
            exfalso
            apply h
            by_cases hlt : n + 1 < P.length
            · rw [take_succ_of_getElem? (List.getElem?_eq_getElem hlt)]
              exact H.absent _ _ (fun e => by
                have := congrArg List.length e
                rw [List.length_take, List.length_nil] at this; omega) d5
            · omega
          · intro _ h
            rcases h with h | h
            · omega
            · exact absurd d5 h
        · by_cases hm2 : m = n
          · subst hm2
            rw [hL'] at d2
            cases d2
            refine ⟨Ln', ?_, fun h => absurd d5 h, fun h => by omega, fun h => by omega, a, g, c4, ?_, fun h => by omega, c7, c8⟩
            · rw [List.getElem?_set_self]
              rw [List.length_set]
              exact (List.getElem?_eq_some_iff.1 hL').1
            · rw [c6 rfl] at c5 ⊢
              exact c5.trans d9
          · refine ⟨L', ?_, c1, fun h => c2 (by omega), fun h => absurd h hm, a, g, c4, c5,
              fun h => absurd h hm, c7, c8⟩
            rw [List.getElem?_set_ne (by omega), List.getElem?_set_ne (by omega)]
            exact hL'

variable {dflt : Option α} {Ph : List Nat} {t : ST α} {M : Nat → Option α}

/-- What `get_or_insert_impl` writes. -/
theorem SS.insert_cost (hc : Cfg N D) (hcap : CapOk D cap)
    (S : SS N D cap dflt Ph t M B) {k : Nat} (hk : k < width N ^ D) {ins : Bool} {v : α}
    (hroom : ∀ n, n + 1 < D → B ((path (width N) D k).take (n + 1)) = 0 →
      liveCount (width N) (n + 1) B + 2 ≤ cap (n + 1)) {out : InsOut α}
    (he : getOrInsertImpl N D t k ins v = .ok out) :
    ∀ m L, t.levels[m]? = some L → ∃ L', out.tree.levels[m]? = some L' ∧
      (B ((path (width N) D k).take (m + 1)) ≠ 0 → L' = L) ∧
      ∃ a g, g ≤ 1 ∧ Diff a g L L' ∧ (m = 0 ∨ B ((path (width N) D k).take m) ≠ 0 → g = 0) := by
  have hPv := validPath_path hk
  have hPl := path_length (width N) D k
  have hlev : levelIndices N D k = .ok (path (width N) D k) := levelIndices_eq hc.valid k
  have hpos := hc.pos
  have hle := hc.le
  obtain ⟨lv', B', e1, H', -, hs, -, hcost⟩ := insertWalk_cost hc.nz S.lv hPv hPl hroom
    (fun n hn => hcap.fits n (by omega)) (D - 1) (by omega)
  generalize path (width N) D k = P at *
  have hPtk : P.take (D - 1 + 1) = P := List.take_of_length_le (by omega)
  unfold getOrInsertImpl at he
  rw [hlev] at he
  simp only [bind_ok] at he
  obtain ⟨inner, f1, he⟩ := bind_inv he
  rw [constLoop_eq _ _ _ _ (by omega) (by omega),
    show rangeFromTo 0 (D - 1) = List.range (D - 1) by simp [rangeFromTo], e1] at he
  simp only [bind_ok] at he
  obtain ⟨L1, f2, he⟩ := bind_inv he
  obtain ⟨b, f3, he⟩ := bind_inv he
  obtain ⟨di, f4, he⟩ := bind_inv he
  have hin : P[D - 1]? = some inner := by
    rw [List.getLast?_eq_getElem?, hPl] at f1
    exact unwrapU_inv f1
  have hdi : di = B P := by
    rw [H'.child hPv hPl hin (getP_inv f2) (getU_inv f3) f4, hPtk]
    apply hs
    intro m h1 h2 e
    have := congrArg List.length e
    rw [List.length_take] at this
    omega
  split at he
  · next h0 =>
    obtain ⟨b', f5, he⟩ := bind_inv he
    obtain ⟨blocks, f6, he⟩ := bind_inv he
    obtain ⟨rfl, -⟩ := setU_inv f6
    cases he
    intro m L hL
    obtain ⟨L', g1, g2, g3, -, a, g, g4, g5, g6, g7, g8⟩ := hcost m L hL
    by_cases hm : m = D - 1
    · subst hm
      have := getP_inv f2
      rw [g1] at this
      simp only [Option.some.injEq] at this
      subst this
      refine ⟨{ L' with blocks := L'.blocks.set (B' (P.take (D - 1))) b' }, ?_, ?_, a, g, g4, ?_, ?_⟩
      · exact List.getElem?_set_self (List.getElem?_eq_some_iff.1 g1).1
      · rw [hPtk]
        intro h
        exact absurd (hdi.symm.trans h0) h
      · rw [g6 rfl] at g5 ⊢
        exact g5.trans (Diff.set _ _ _ _ _)
      · rintro (h | h)
        · exact g7 h
        · exact g8 h
    · refine ⟨L', ?_, g2, a, g, g4, g5, ?_⟩
      · simp only
        rw [List.getElem?_set_ne (by omega)]; exact g1
      · rintro (h | h)
        · exact g7 h
        · exact g8 h
  · next h0 =>
    have hlv : out.tree.levels = lv' := by
      obtain ⟨old, -, he⟩ := bind_inv he
      obtain ⟨old', -, he⟩ := bind_inv he
      split at he
      · obtain ⟨_, -, he⟩ := bind_inv he
        cases he; rfl
      · cases he; rfl
    intro m L hL
    obtain ⟨L', g1, g2, g3, -, a, g, g4, g5, g6, g7, g8⟩ := hcost m L hL
    refine ⟨L', by rw [hlv]; exact g1, g2, a, g, g4, g5, ?_⟩
    rintro (h | h)
    · exact g7 h
    · exact g8 h

/-! ## remove -/

/-- The position of the block of level `m`, as `remove` computes it. -/
def blockAt (lbi : List Nat) (m : Nat) : Option Nat := if m = 0 then some 0 else lbi[m - 1]?

theorem Block.remove_slot {b b' : Block} {i : Nat} (h : b.remove i = .ok b') :
    b'.idx[i]? = some 0 := by
  unfold Block.remove at h
  obtain ⟨⟨_, mask⟩, -, h⟩ := bind_inv h
  obtain ⟨idx, e, h⟩ := bind_inv h
  obtain ⟨rfl, hi⟩ := setU_inv e
  cases h
  exact List.getElem?_set_self hi

theorem removeLoop_eq (P lbi : List Nat) (n : Nat) (lv : List Level) :
    removeLoop P lbi (n + 1) lv = (getP lv n).bind fun L =>
      (if n = 0 then .ok 0 else getP lbi (n - 1)).bind fun bi => (getU L.blocks bi).bind fun b =>
      (getP P n).bind fun inner => (b.remove inner).bind fun b =>
      (setU L.blocks bi b).bind fun blocks =>
      if b.isEmpty then
        (if n ≠ 0 then Level.removeEmpty { L with blocks := blocks } bi
          else .ok { L with blocks := blocks }).bind fun L => removeLoop P lbi n (lv.set n L)
      else .ok (lv.set n { L with blocks := blocks }) := by
  rw [removeLoop]
  by_cases h : n = 0
  · simp only [if_pos h, ne_eq, h, not_true, if_false]; rfl
  · simp only [if_neg h, ne_eq, h, not_false_iff, if_true]; rfl

/-- What the loop of `remove` writes: the level is the same, or one slot of one block was cleared. -/
theorem removeLoop_cost {P lbi : List Nat} : ∀ (n : Nat) (lv lv' : List Level),
    removeLoop P lbi n lv = .ok lv' → ∀ m L, lv[m]? = some L → ∃ L', lv'[m]? = some L' ∧
      (n ≤ m → L' = L) ∧
      (L' = L ∨ ∃ a i b, blockAt lbi m = some a ∧ P[m]? = some i ∧ Diff a 0 L L' ∧
        L'.blocks[a]? = some b ∧ b.idx[i]? = some 0)
  | 0, lv, lv', h, m, L, hL => by
    cases h
    exact ⟨L, hL, fun _ => rfl, .inl rfl⟩
  | n + 1, lv, lv', h, m, L, hL => by
    rw [removeLoop_eq] at h
    obtain ⟨Ln, e1, h⟩ := bind_inv h
    obtain ⟨bi, e2, h⟩ := bind_inv h
    obtain ⟨b, e3, h⟩ := bind_inv h
    obtain ⟨inner, e4, h⟩ := bind_inv h
    obtain ⟨b', e5, h⟩ := bind_inv h
    obtain ⟨blocks, e6, h⟩ := bind_inv h
    obtain ⟨rfl, hlt⟩ := setU_inv e6
    have hbi : blockAt lbi n = some bi := by
      unfold blockAt
      split at e2
      · next h0 => rw [if_pos h0]; cases e2; rfl
      · next h0 => rw [if_neg h0]; exact getP_inv e2
    have hslot := Block.remove_slot e5
    have hln := (List.getElem?_eq_some_iff.1 (getP_inv e1)).1
    have hfin : ∀ Ln', Diff bi 0 Ln Ln' → (∃ b, Ln'.blocks[bi]? = some b ∧ b.idx[inner]? = some 0) →
        ∀ m L, lv[m]? = some L → ∃ L', (lv.set n Ln')[m]? = some L' ∧ (n + 1 ≤ m → L' = L) ∧
        (L' = L ∨ ∃ a i b, blockAt lbi m = some a ∧ P[m]? = some i ∧ Diff a 0 L L' ∧
          L'.blocks[a]? = some b ∧ b.idx[i]? = some 0) := by
      intro Ln' hd ⟨b, hb1, hb2⟩ m L hL
      by_cases hm : m = n
      · subst hm
        rw [getP_inv e1] at hL
        cases hL
        exact ⟨Ln', List.getElem?_set_self hln, fun h => by omega,
          .inr ⟨bi, inner, b, hbi, getP_inv e4, hd, hb1, hb2⟩⟩
      · exact ⟨L, by rw [List.getElem?_set_ne (by omega)]; exact hL, fun _ => rfl, .inl rfl⟩
    split at h
    · obtain ⟨L2, e7, h⟩ := bind_inv h
      have h2 : Diff bi 0 Ln L2 ∧ ∃ b, L2.blocks[bi]? = some b ∧ b.idx[inner]? = some 0 := by
        split at e7
        · unfold Level.removeEmpty at e7
          split at e7
          · cases e7
          · obtain ⟨b2, q1, e7⟩ := bind_inv e7
            obtain ⟨mask, q2, e7⟩ := bind_inv e7
            obtain ⟨bl, q3, e7⟩ := bind_inv e7
            obtain ⟨rfl, q4⟩ := setU_inv q3
            cases e7
            have := getU_inv q1
            simp only at this
            rw [List.getElem?_set_self hlt] at this
            cases this
            exact ⟨(Diff.set Ln bi b' Ln.rootEmpty Ln.single).trans (Diff.set _ _ _ _ _),
              _, List.getElem?_set_self q4, hslot⟩
        · cases e7
          exact ⟨Diff.set _ _ _ _ _, b', List.getElem?_set_self hlt, hslot⟩
      obtain ⟨L1, g1, g2, g3⟩ := hfin L2 h2.1 h2.2 m L hL
      obtain ⟨L3, g4, g5, g6⟩ := removeLoop_cost n _ _ h m L1 g1
      refine ⟨L3, g4, fun hm => by rw [g5 (by omega), g2 hm], ?_⟩
      by_cases hm : n ≤ m
      · rw [g5 hm]; exact g3
      · have hL1 : L1 = L := by
          rw [List.getElem?_set_ne (by omega), hL] at g1
          cases g1; rfl
        subst hL1
        exact g6
    · cases h
      exact hfin _ (Diff.set _ _ _ _ _) ⟨b', List.getElem?_set_self hlt, hslot⟩ m L hL

/-- What `remove` of a stored key writes. -/
theorem SS.remove_cost (hc : Cfg N D) (hcap : CapOk D cap) (S : SS N D cap dflt Ph t M B) {k : Nat}
    (hk : k < keyRange N D) {t' : ST α} {o : Option α} (he : remove N D t k = .ok (t', o)) :
    (M k = none → t' = t) ∧
    ∀ m L, t.levels[m]? = some L → ∃ L', t'.levels[m]? = some L' ∧
      L'.blocks.length = L.blocks.length ∧
      (m + 1 < D → (∃ j, j < width N ^ D ∧ j ≠ k ∧ (M j).isSome = true ∧
        j / width N ^ (D - (m + 1)) = k / width N ^ (D - (m + 1))) → L' = L) ∧
      ∃ as : List Nat, as.length ≤ (if m + 1 = D then 2 else 1) ∧
        ∀ b, b < L.blocks.length → b ∉ as → L'.blocks[b]? = L.blocks[b]? := by
  have hkr := hk
  replace hk := Nat.lt_of_lt_of_le hk (keyRange_le N D)
  have hPv := validPath_path hk
  have hPl := path_length (width N) D k
  have hlev : levelIndices N D k = .ok (path (width N) D k) := levelIndices_eq hc.valid k
  have hpos := hc.pos
  have hent := S.entry hk
  have hfetch := S.fetch hPv hPl
  obtain ⟨t2, B', e', S'⟩ := S.remove_spec hc hcap hkr
  rw [he] at e'
  simp only [Except.ok.injEq, Prod.mk.injEq] at e'
  obtain ⟨rfl, -⟩ := e'
  unfold remove at he
  rw [indexFrom_eq, if_pos hkr] at he
  simp only [bind_ok, hlev, hfetch] at he
  split at he
  · next h0 =>
    cases he
    exact ⟨fun _ => rfl, fun m L hL => ⟨L, hL, rfl, fun _ _ => rfl, [], by simp, fun _ _ _ => rfl⟩⟩
  · next h0 =>
    refine ⟨fun hM => ?_, ?_⟩
    · rcases hent with ⟨-, h⟩ | ⟨v, h, -⟩
      · exact absurd h h0
      · rw [hM] at h; cases h
    obtain ⟨lv1, f1, he⟩ := bind_inv he
    obtain ⟨t1, f2, he⟩ := bind_inv he
    obtain ⟨⟨_, keys⟩, -, he⟩ := bind_inv he
    obtain ⟨⟨v, values⟩, -, he⟩ := bind_inv he
    obtain ⟨v', -, he⟩ := bind_inv he
    have hlv : t'.levels = t1.levels := by cases he; rfl
    clear he
    have hmove : ∀ m L, lv1[m]? = some L → ∃ L', t'.levels[m]? = some L' ∧
        (m + 1 < D → L' = L) ∧ ∃ a, Diff a 0 L L' := by
      rw [hlv]
      unfold moveLast at f2
      obtain ⟨last, -, f2⟩ := bind_inv f2
      simp only at f2
      split at f2
      · obtain ⟨rest, -, f2⟩ := bind_inv f2
        obtain ⟨L1, q1, f2⟩ := bind_inv f2
        obtain ⟨b1, -, f2⟩ := bind_inv f2
        obtain ⟨b2, -, f2⟩ := bind_inv f2
        obtain ⟨bl, q2, f2⟩ := bind_inv f2
        obtain ⟨rfl, -⟩ := setU_inv q2
        cases f2
        intro m L hL
        have q1 := getP_inv q1
        by_cases hm : m = D - 1
        · subst hm
          rw [hL] at q1
          cases q1
          exact ⟨_, List.getElem?_set_self (List.getElem?_eq_some_iff.1 hL).1, fun h => by omega,
            _, Diff.set _ _ _ _ _⟩
        · exact ⟨L, by simp only; rw [List.getElem?_set_ne (by omega)]; exact hL, fun _ => rfl, 0,
            Diff.refl _ _⟩
      · cases f2
        exact fun m L hL => ⟨L, hL, fun _ => rfl, 0, Diff.refl _ _⟩
    have hloop := removeLoop_cost D t.levels lv1 f1
    have hback : ∀ m, blockAt ((List.range D).map fun m => B ((path (width N) D k).take (m + 1))) m =
        if m ≤ D then some (B ((path (width N) D k).take m)) else none := by
      intro m
      unfold blockAt
      by_cases hm : m = 0
      · subst hm
        rw [if_pos rfl, if_pos (by omega), List.take_zero, S.lv.root]
      · rw [if_neg hm]
        by_cases hd : m ≤ D
        · rw [if_pos hd, List.getElem?_map, List.getElem?_range (by omega), Option.map_some,
            Nat.sub_add_cancel (by omega)]
        · rw [if_neg hd, List.getElem?_map, List.getElem?_eq_none (by simp; omega)]; rfl
    -- the surviving part of the path is where it was
    have hstep : ∀ m, m + 1 < D → B' ((path (width N) D k).take (m + 1)) ≠ 0 →
        B' ((path (width N) D k).take m) = B ((path (width N) D k).take m) →
        B' ((path (width N) D k).take (m + 1)) = B ((path (width N) D k).take (m + 1)) ∧
        ∃ L, t.levels[m]? = some L ∧ t'.levels[m]? = some L := by
      generalize path (width N) D k = P at *
      intro m hm hne hpar
      obtain ⟨L, hL, -⟩ := S.lv.get (n := m) (by omega)
      obtain ⟨L1, g1, g2, g3⟩ := hloop m L hL
      obtain ⟨L2, g4, g5, -⟩ := hmove m L1 g1
      rw [g5 hm] at g4
      have hin : P[m]? = some P[m] := List.getElem?_eq_getElem (by omega)
      have hpl : (P.take m).length = m := by simp; omega
      obtain ⟨b, hb, hbI⟩ := S'.lv.block (p := P.take m) (hPv.take m) (by rw [hpl]; exact g4)
      have hc' := hbI.get (i := P[m]) (hPv _ (List.getElem_mem _)) (by simp)
      have hne' := S'.lv.child hPv hPl hin g4 hb hc'
      rcases g3 with rfl | ⟨a, i, b2, q1, q2, q3, q4, q5⟩
      · rw [hpar] at hb
        rw [← S.lv.child hPv hPl hin hL hb hc', hne']
        exact ⟨rfl, L1, hL, g4⟩
      · exfalso
        rw [hback, if_pos (by omega), ← hpar] at q1
        cases q1
        rw [hin] at q2
        cases q2
        rw [hb] at q4
        cases q4
        have := getU_inv hc'
        rw [q5] at this
        simp only [Option.some.injEq] at this
        exact hne (by rw [← hne', ← this])
    have htop : ∀ m, m + 1 < D → B' ((path (width N) D k).take (m + 1)) ≠ 0 →
        B' ((path (width N) D k).take (m + 1)) = B ((path (width N) D k).take (m + 1)) ∧
        ∃ L, t.levels[m]? = some L ∧ t'.levels[m]? = some L := by
      intro m
      induction m with
      | zero =>
        intro hm hne
        exact hstep 0 hm hne (by rw [List.take_zero, S.lv.root, S'.lv.root])
      | succ m ih =>
        intro hm hne
        refine hstep (m + 1) hm hne (ih (by omega) ?_).1
        have hin : (path (width N) D k)[m + 1]? = some ((path (width N) D k)[m + 1]'(by omega)) :=
          List.getElem?_eq_getElem (by omega)
        rw [take_succ_of_getElem? hin] at hne
        rcases S'.lv.parent_live hne with h | h
        · have := congrArg List.length h
          rw [List.length_take, List.length_nil] at this; omega
        · exact h
    intro m L hL
    obtain ⟨L1, g1, g2, g3⟩ := hloop m L hL
    obtain ⟨L2, g4, g5, a2, g6⟩ := hmove m L1 g1
    have hmD : m < D := by
      have := (List.getElem?_eq_some_iff.1 hL).1
      rwa [S.lv.len] at this
    obtain ⟨a1, h1⟩ : ∃ a, Diff a 0 L L1 := by
      rcases g3 with rfl | ⟨a, i, b, -, -, h, -⟩
      · exact ⟨0, Diff.refl _ _⟩
      · exact ⟨a, h⟩
    refine ⟨L2, g4, by rw [g6.1, h1.1]; rfl, ?_, ?_⟩
    · rintro hm ⟨j, j1, j2, j3, j4⟩
      have hl := S'.live_of (n := m + 1) (by omega) (by omega) j1 (by
        unfold put; rw [if_neg j2]; exact j3)
      rw [j4, ← take_path hk (by omega)] at hl
      obtain ⟨-, L3, q1, q2⟩ := htop m hm hl
      rw [hL] at q1
      cases q1
      rw [g4] at q2
      cases q2
      rfl
    · by_cases hm : m + 1 = D
      · rw [if_pos hm]
        refine ⟨[a1, a2], by simp, fun b hb hne => ?_⟩
        simp only [List.mem_cons, List.not_mem_nil, or_false, not_or] at hne
        rw [g6.2 b (by rw [h1.1]; omega) hne.2, h1.2 b hb hne.1]
      · rw [if_neg hm]
        refine ⟨[a1], by simp, fun b hb hne => ?_⟩
        simp only [List.mem_cons, List.not_mem_nil, or_false] at hne
        rw [g5 (by omega), h1.2 b hb hne]

end

end Hibit.Sparse
