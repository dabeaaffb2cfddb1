import Verif.Sparse.Blocks
/-!
# SparseTree: what happens when a child index type is exhausted
-/
namespace Hibit.Sparse
open Hibit

section
variable {N D : Nat} {cap : Nat → Nat} {lv : List Level} {B : List Nat → Nat}

/-- `insert_empty_block` always gives an empty block other than block 0. -/
theorem LevelOk.insertEmpty_any {n c : Nat} {L : Level} (hN : 0 < N) (hL : LevelOk N n c L B none)
    (hn : n ≠ 0) :
    ∃ new L', L.insertEmpty N = .ok (new, L') ∧ new ≠ 0 ∧
      L'.blocks[new]? = some (Block.empty N) ∧ L'.blocks[0]? = some (Block.empty N) := by
  have hs : L.single = false := by rw [hL.single]; simpa using hn
  have h0 := hL.zero hn
  have hlen0 := (List.getElem?_eq_some_iff.1 h0).1
  obtain ⟨fl, h1, h2, h3, h4⟩ := hL.free
  cases fl with
  | nil =>
    have he : L.rootEmpty = freeEnd := h1
    refine ⟨L.blocks.length, { L with blocks := L.blocks ++ [Block.empty N] }, ?_, by omega, by simp, ?_⟩
    · unfold Level.insertEmpty Level.popEmpty
      simp only [hs, he, if_true, Bool.false_eq_true, if_false, pure_eq_ok, bind_ok]
    · simp only
      rw [List.getElem?_append_left hlen0]; exact h0
  | cons f fs =>
    obtain ⟨g1, g2, next, g3, g4⟩ := h1
    have hflt := (List.getElem?_eq_some_iff.1 g3).1
    have hf0 := (h3 f (by simp)).1
    have hmask : (freeBlock N next).mask[0]? = some next := by simp [freeBlock]
    have hset : setU (freeBlock N next).mask 0 0 = .ok (Block.empty N).mask := by
      rw [setU_ok _ (by simp [freeBlock])]
      congr 1
      obtain ⟨k, rfl⟩ : ∃ k, N = k + 1 := ⟨N - 1, by omega⟩
      simp [Block.empty, zeroMask, freeBlock, List.replicate_succ]
    refine ⟨f, ⟨L.single, L.blocks.set f (Block.empty N), next⟩, ?_, hf0, by simp [hflt], ?_⟩
    · unfold Level.insertEmpty Level.popEmpty
      simp only [hs, if_neg g2, Bool.false_eq_true, if_false, g1, getU_some g3, bind_ok,
        getU_some hmask, hset, setU_ok _ hflt, pure_eq_ok]
      rfl
    · simp only [getElem?_set_if hflt, if_neg (fun e => hf0 (Eq.symm e) : ¬ 0 = f)]
      exact h0

/-- At the capacity the free list is empty and the new block is the one behind the last. -/
theorem LevelOk.insertEmpty_full {n c : Nat} {L : Level} (hL : LevelOk N n c L B none) (hn : n ≠ 0)
    (hv : ∀ p, B p ≠ 0 → ValidPath (width N) p)
    (hfull : liveCount (width N) n B + 1 = c) :
    L.insertEmpty N = .ok (c, { L with blocks := L.blocks ++ [Block.empty N] }) ∧
      L.blocks.length = c := by
  have hs : L.single = false := by rw [hL.single]; simpa using hn
  have h0 := hL.zero hn
  have hlen0 := (List.getElem?_eq_some_iff.1 h0).1
  have hcap := hL.cap hn
  obtain ⟨fl, h1, h2, h3, h4⟩ := hL.free
  -- live blocks
  let live := ((List.range (width N ^ n)).filter fun x =>
    decide (B (path (width N) n x) ≠ 0)).map fun x => B (path (width N) n x)
  have hll : live.length = liveCount (width N) n B := by simp [live, liveCount]
  have hlmem : ∀ b ∈ live, ∃ q, q.length = n ∧ B q = b ∧ b ≠ 0 := by
    intro b hb
    simp only [live, List.mem_map, List.mem_filter, decide_eq_true_eq] at hb
    obtain ⟨x, ⟨-, hx⟩, rfl⟩ := hb
    exact ⟨_, path_length _ _ _, rfl, hx⟩
  have hlnd : live.Nodup := by
    refine List.pairwise_map.2 ?_
    refine List.Pairwise.imp_of_mem ?_ (List.nodup_range.filter _)
    intro x y hx hy hne e
    rw [List.mem_filter, List.mem_range, decide_eq_true_iff] at hx hy
    exact hne (path_injOn hx.1 hy.1 (hL.inj _ _ (path_length _ _ _) (path_length _ _ _) e hx.2))
  have hall : (live ++ fl).Nodup := by
    rw [List.nodup_append]
    refine ⟨hlnd, h2, fun a ha b hb e => ?_⟩
    obtain ⟨q, q1, q2, -⟩ := hlmem a ha
    exact (h3 b hb).2 q q1 (by rw [q2, e])
  have hsub : live ++ fl ⊆ (List.range (L.blocks.length - 1)).map (· + 1) := by
    intro b hb
    have : b ≠ 0 ∧ b < L.blocks.length := by
      rw [List.mem_append] at hb
      rcases hb with hb | hb
      · obtain ⟨q, q1, q2, q3⟩ := hlmem b hb
        obtain ⟨blk, g, -⟩ := hL.node q (hv q (by rw [q2]; exact q3)) q1 (.inr (by rw [q2]; exact q3))
        rw [q2] at g
        exact ⟨q3, (List.getElem?_eq_some_iff.1 g).1⟩
      · exact ⟨(h3 b hb).1, h1.lt b hb⟩
    simp only [List.mem_map, List.mem_range]
    exact ⟨b - 1, by omega, by omega⟩
  have hle := hall.length_le_of_subset hsub
  simp only [List.length_append, List.length_map, List.length_range, hll] at hle
  have hfl : fl = [] := List.length_eq_zero_iff.1 (by omega)
  subst hfl
  have he : L.rootEmpty = freeEnd := h1
  have hlen : L.blocks.length = c := by omega
  refine ⟨?_, hlen⟩
  unfold Level.insertEmpty Level.popEmpty
  simp only [hs, he, if_true, Bool.false_eq_true, if_false, pure_eq_ok, bind_ok, hlen]

/-! ## The descent below a lost block -/

/-- The state of the descent at level `m` of a key whose path is cut off above level `n ≤ m`: the
current block is an empty one other than block 0, and block 0 of every level from `n` on is empty. -/
structure Void (N D n m : Nat) (cap : Nat → Nat) (B : List Nat → Nat) (lv : List Level) (bi : Nat) :
    Prop where
  len : lv.length = D
  above : ∀ l L, m < l → lv[l]? = some L → LevelOk N l (cap l) L B none
  zero : ∀ l L, n ≤ l → lv[l]? = some L → L.blocks[0]? = some (Block.empty N)
  here : ∃ L, lv[m]? = some L ∧ L.blocks[bi]? = some (Block.empty N)
  ne : bi ≠ 0

theorem Void.step (hN : 0 < N) {n m bi : Nat} (V : Void N D n m cap B lv bi) (hm : m + 1 < D)
    {P : List Nat} (hP : ValidPath (width N) P) (hPl : P.length = D) (hnm : n ≤ m) :
    ∃ lv' bi', insertStep N P (lv, bi) m = .ok ((lv', bi'), false) ∧
      Void N D n (m + 1) cap B lv' bi' ∧ ∀ l, l < m → lv'[l]? = lv[l]? := by
  have hmP : m < P.length := by omega
  have hget : P[m]? = some P[m] := List.getElem?_eq_getElem hmP
  have hi : P[m] < width N := hP _ (List.getElem_mem _)
  generalize P[m] = i at hget hi
  obtain ⟨L, hL, hb⟩ := V.here
  have hblt := (List.getElem?_eq_some_iff.1 hb).1
  have hlm : m + 1 < lv.length := by rw [V.len]; exact hm
  have hL1 : lv[m + 1]? = some lv[m + 1] := List.getElem?_eq_getElem hlm
  have K := V.above (m + 1) _ (by omega) hL1
  generalize lv[m + 1] = L1 at hL1 K
  obtain ⟨new, L1', e1, hne, g1, g2⟩ := K.insertEmpty_any hN (by omega)
  have hslot : (Block.empty N).getOrZero i = .ok 0 := by
    apply getU_some; simp [Block.empty, hi]
  obtain ⟨m', em, -, -⟩ := setBit_spec true (Block.empty N).mask (k := i)
    (by simpa [Block.empty, width, zeroMask] using hi)
  have hins : (Block.empty N).insert m i new =
      .ok ⟨m', (Block.empty N).idx.set i (fromUsize m new)⟩ := by
    unfold Block.insert
    rw [em]
    simp only [bind_ok]
    rw [setU_ok _ (by simpa [Block.empty] using hi)]
    rfl
  generalize (⟨m', (Block.empty N).idx.set i (fromUsize m new)⟩ : Block) = b' at hins
  have hL' : (lv.set (m + 1) L1')[m]? = some L := by
    rw [List.getElem?_set_ne (by omega)]; exact hL
  refine ⟨(lv.set (m + 1) L1').set m { L with blocks := L.blocks.set bi b' }, new, ?_, ?_, ?_⟩
  · unfold insertStep
    simp only [getP_some hget, getP_some hL, getU_some hb, hslot, bind_ok, if_true, getP_some hL1, e1,
      getP_some hL', hins, setU_ok _ hblt, pure_eq_ok]
  · constructor
    · simp [V.len]
    · intro l L2 hl h
      rw [List.getElem?_set_ne (by omega), List.getElem?_set_ne (by omega)] at h
      exact V.above l L2 (by omega) h
    · intro l L2 hl h
      rcases lv_set_get h with ⟨rfl, rfl⟩ | ⟨h1, h⟩
      · show (L.blocks.set bi b')[0]? = _
        rw [List.getElem?_set_ne V.ne]
        exact V.zero l L hl hL
      · rcases lv_set_get h with ⟨rfl, rfl⟩ | ⟨h1, h⟩
        · exact g2
        · exact V.zero l L2 hl h
    · refine ⟨L1', ?_, g1⟩
      rw [List.getElem?_set_ne (by omega), List.getElem?_set_self hlm]
    · exact hne
  · intro l hl
    rw [List.getElem?_set_ne (by omega), List.getElem?_set_ne (by omega)]

theorem Void.walk (hN : 0 < N) {n : Nat} {P : List Nat} (hP : ValidPath (width N) P)
    (hPl : P.length = D) : ∀ (k m : Nat) (lv : List Level) (bi : Nat), m + k + 1 = D → n ≤ m →
    Void N D n m cap B lv bi →
    ∃ lv' bi', visitList (insertStep N P) (List.range' m k) (lv, bi) = .ok ((lv', bi'), false) ∧
      Void N D n (D - 1) cap B lv' bi' ∧ ∀ l, l < m → lv'[l]? = lv[l]? := by
  intro k
  induction k with
  | zero =>
    intro m lv bi hk _ V
    exact ⟨lv, bi, rfl, by rw [show D - 1 = m by omega]; exact V, fun _ _ => rfl⟩
  | succ k ih =>
    intro m lv bi hk hn V
    obtain ⟨lv1, bi1, e1, V1, s1⟩ := V.step hN (by omega) hP hPl hn
    obtain ⟨lv2, bi2, e2, V2, s2⟩ := ih (m + 1) lv1 bi1 (by omega) (by omega) V1
    refine ⟨lv2, bi2, ?_, V2, fun l hl => by rw [s2 l (by omega), s1 l hl]⟩
    simp only [List.range'_succ, visitList, e1, bind_ok, Bool.false_eq_true, if_false, e2]

/-- The descent along live blocks changes nothing. -/
theorem LvRep.walk_live (H : LvRep N D cap lv B none) {P : List Nat} (hP : ValidPath (width N) P)
    (hPl : P.length = D) : ∀ n, n < D → (∀ m, 1 ≤ m → m ≤ n → B (P.take m) ≠ 0) →
    visitList (insertStep N P) (List.range n) (lv, 0) = .ok ((lv, B (P.take n)), false) := by
  intro n
  induction n with
  | zero => intro _ _; simp [visitList, H.root]
  | succ n ih =>
    intro hn hl
    have hnP : n < P.length := by omega
    have hget : P[n]? = some P[n] := List.getElem?_eq_getElem hnP
    have htk := take_succ_of_getElem? hget
    have hi : P[n] < width N := hP _ (List.getElem_mem _)
    generalize P[n] = i at hget htk hi
    have hpl : (P.take n).length = n := by simp; omega
    obtain ⟨L, hL, -⟩ := H.get (n := n) (by omega)
    obtain ⟨b, hb, hbI⟩ := H.block (p := P.take n) (hP.take n) (by rw [hpl]; exact hL)
    have hc := hbI.get hi (by simp)
    rw [← htk] at hc
    rw [List.range_succ, visitList_append, ih (by omega) (fun m h1 h2 => hl m h1 (by omega))]
    simp only [bind_ok, Bool.false_eq_true, if_false, visitList]
    have : insertStep N P (lv, B (P.take n)) n = .ok ((lv, B (P.take (n + 1))), false) := by
      unfold insertStep
      simp only [getP_some hget, getP_some hL, getU_some hb, hc, bind_ok,
        if_neg (hl (n + 1) (by omega) (by omega)), pure_eq_ok]
    simp only [this, bind_ok, Bool.false_eq_true, if_false]

/-- Fetching through empty blocks gives 0. -/
theorem fetch_zero {P : List Nat} (hP : ValidPath (width N) P) : ∀ (Ls : List Level) (n : Nat),
    n + Ls.length ≤ P.length → (∀ L ∈ Ls, L.blocks[0]? = some (Block.empty N)) →
    ∃ out, fetchFrom P n 0 Ls = .ok (out, 0) := by
  intro Ls
  induction Ls with
  | nil => intro n _ _; exact ⟨[], rfl⟩
  | cons L Ls ih =>
    intro n hl h
    have hnP : n < P.length := by simp at hl; omega
    have hget : P[n]? = some P[n] := List.getElem?_eq_getElem hnP
    have hi : P[n] < width N := hP _ (List.getElem_mem _)
    have hslot : (Block.empty N).getOrZero P[n] = .ok 0 := by
      apply getU_some; simp [Block.empty, hi]
    obtain ⟨out, e⟩ := ih (n + 1) (by simp at hl; omega) (fun L' hL' => h L' (by simp [hL']))
    exact ⟨0 :: out, by simp only [fetchFrom, getU_some (h L (by simp)), getU_some hget, hslot, bind_ok, e,
      pure_eq_ok]⟩

/-- Fetching along blocks that are linked down to level `n`, where the slot is 0. -/
theorem fetch_cut {P : List Nat} (hP : ValidPath (width N) P) (hPl : P.length = D) {lv : List Level}
    (hlen : lv.length = D) {n : Nat} (hn : n < D)
    (hlink : ∀ l, l ≤ n → ∃ L b i, lv[l]? = some L ∧ P[l]? = some i ∧ L.blocks[B (P.take l)]? = some b ∧
      b.getOrZero i = .ok (if l = n then 0 else B (P.take (l + 1))))
    (hzero : ∀ l L, n < l → lv[l]? = some L → L.blocks[0]? = some (Block.empty N)) :
    ∀ k l, l + k = n → ∃ out, fetchFrom P l (B (P.take l)) (lv.drop l) = .ok (out, 0) := by
  intro k
  induction k with
  | zero =>
    intro l hl
    obtain rfl : l = n := by omega
    obtain ⟨L, b, i, h1, h2, h3, h4⟩ := hlink l (by omega)
    rw [if_pos rfl] at h4
    obtain ⟨out, e⟩ := fetch_zero hP (lv.drop (l + 1)) (l + 1) (by simp; omega) (by
      intro L' hL'
      obtain ⟨j, hj⟩ := List.mem_iff_getElem?.1 hL'
      rw [List.getElem?_drop] at hj
      exact hzero _ L' (by omega) hj)
    have hll := (List.getElem?_eq_some_iff.1 h1)
    rw [List.drop_eq_getElem_cons hll.1, hll.2]
    exact ⟨0 :: out, by simp only [fetchFrom, getU_some h3, getU_some h2, h4, bind_ok, e, pure_eq_ok]⟩
  | succ k ih =>
    intro l hl
    obtain ⟨L, b, i, h1, h2, h3, h4⟩ := hlink l (by omega)
    rw [if_neg (by omega)] at h4
    obtain ⟨out, e⟩ := ih (l + 1) (by omega)
    have hll := (List.getElem?_eq_some_iff.1 h1)
    rw [List.drop_eq_getElem_cons hll.1, hll.2]
    exact ⟨_, by simp only [fetchFrom, getU_some h3, getU_some h2, h4, bind_ok, e, pure_eq_ok]; rfl⟩

end

section
variable {α : Type} {N D : Nat} {dflt : Option α} {Ph : List Nat} {t : ST α}
  {M : Nat → Option α} {B : List Nat → Nat}

/-- Inserting an absent key whose level-`n + 1` node (`n + 1 = D`: whose value) would need the position
`2^bits` in the child index type of level `n`, the node of level `n` being live: it reports success, and
the key is not found. -/
theorem SS.insert_lost (hc : Cfg N D) (S : SS N D idxCap dflt Ph t M B) {k n : Nat}
    (hk : k < width N ^ D) (hn : n < D)
    (hlive : ∀ m, 1 ≤ m → m ≤ n → B ((path (width N) D k).take m) ≠ 0)
    (habs : B ((path (width N) D k).take (n + 1)) = 0)
    (hfull : if n + 1 < D then liveCount (width N) (n + 1) B + 1 = idxCap (n + 1)
      else t.values.length = idxCap D) (ins : Bool) (v : α) :
    ∃ out, getOrInsertImpl N D t k ins v = .ok out ∧ out.called = true ∧
      out.tree.values = t.values ++ [some v] ∧ out.tree.keys = t.keys ++ [k] ∧
      out.dataIndex = t.values.length ∧
      ∃ lbi, fetchBlockIndices out.tree (path (width N) D k) = .ok (lbi, 0) := by
  have hN : 0 < N := by rcases hc.words with e | e | e <;> omega
  have hD1 := hc.pos
  have hP := path_lt D hk
  have hPl := path_length (width N) D k
  have hli := levelIndices_eq hc.valid k
  generalize path (width N) D k = P at *
  have hD9 : D < 9 := by have := hc.le; omega
  obtain ⟨it, hitg, hit⟩ : ∃ it, P[D - 1]? = some it ∧ it < width N :=
    ⟨P[D - 1]'(by omega), List.getElem?_eq_getElem (by omega), hP _ (List.getElem_mem _)⟩
  have hlast : P.getLast? = some it := by
    rw [List.getLast?_eq_getElem?, hPl]; exact hitg
  have hnP : n < P.length := by omega
  have hget : P[n]? = some P[n] := List.getElem?_eq_getElem hnP
  have htk := take_succ_of_getElem? hget
  have hi : P[n] < width N := hP _ (List.getElem_mem _)
  have hpl : (P.take n).length = n := by simp; omega
  obtain ⟨L, hL, hK⟩ := S.lv.get (n := n) hn
  obtain ⟨b, hb, hbI⟩ := S.lv.block (p := P.take n) (ValidPath.take hP n) (by rw [hpl]; exact hL)
  have hslot := hbI.get hi (by simp)
  rw [← htk, habs] at hslot
  have hwalk := S.lv.walk_live hP hPl n hn hlive
  obtain ⟨m', em, -, -⟩ := setBit_spec true b.mask (k := P[n])
    (by rw [hbI.mlen]; unfold width at hi; exact hi)
  have hfu : fromUsize n (idxCap (n + 1)) = 0 := by
    unfold fromUsize; rw [idxCap_eq, Nat.mod_self]
  have hins : b.insert n P[n] (idxCap (n + 1)) = .ok ⟨m', b.idx.set P[n] 0⟩ := by
    unfold Block.insert
    rw [em]
    simp only [bind_ok]
    rw [setU_ok _ (by rw [hbI.ilen]; exact hi), hfu]
    rfl
  have hz : (⟨m', b.idx.set P[n] 0⟩ : Block).getOrZero P[n] = .ok 0 := by
    apply getU_some
    show (b.idx.set P[n] 0)[P[n]]? = _
    rw [List.getElem?_set_self (by rw [hbI.ilen]; exact hi)]
  generalize (⟨m', b.idx.set P[n] 0⟩ : Block) = b' at hins hz
  have hblt := (List.getElem?_eq_some_iff.1 hb).1
  -- the links above level `n` are as before
  have hlinks : ∀ lv' : List Level, (∀ l, l < n → lv'[l]? = t.levels[l]?) →
      lv'[n]? = some { L with blocks := L.blocks.set (B (P.take n)) b' } →
      ∀ l, l ≤ n → ∃ L b i, lv'[l]? = some L ∧ P[l]? = some i ∧ L.blocks[B (P.take l)]? = some b ∧
        b.getOrZero i = .ok (if l = n then 0 else B (P.take (l + 1))) := by
    intro lv' hlt hn' l hl
    by_cases e : l = n
    · subst e
      exact ⟨_, b', P[l], hn', hget, by simp [hblt], by rw [if_pos rfl]; exact hz⟩
    · have hlP : l < P.length := by omega
      have hgl : P[l]? = some P[l] := List.getElem?_eq_getElem hlP
      have htl := take_succ_of_getElem? hgl
      have hil : P[l] < width N := hP _ (List.getElem_mem _)
      have hpll : (P.take l).length = l := by simp; omega
      obtain ⟨Ll, hLl, -⟩ := S.lv.get (n := l) (by omega)
      obtain ⟨bl, hbl, hblI⟩ := S.lv.block (p := P.take l) (ValidPath.take hP l) (by rw [hpll]; exact hLl)
      have hs := hblI.get hil (by simp)
      rw [← htl] at hs
      exact ⟨Ll, bl, P[l], by rw [hlt l (by omega)]; exact hLl, hgl, hbl, by rw [if_neg e]; exact hs⟩
  by_cases hnD : n + 1 < D
  · rw [if_pos hnD] at hfull
    obtain ⟨L1, hL1, hK1⟩ := S.lv.get hnD
    obtain ⟨e1, hlen1⟩ := hK1.insertEmpty_full (by omega) (fun p h => (S.lv.valid p h).1) hfull
    generalize hL1' : ({ L1 with blocks := L1.blocks ++ [Block.empty N] } : Level) = L1' at e1
    have hL' : (t.levels.set (n + 1) L1')[n]? = some L := by
      rw [List.getElem?_set_ne (by omega)]; exact hL
    have hll1 := (List.getElem?_eq_some_iff.1 hL1).1
    have hstep : insertStep N P (t.levels, B (P.take n)) n =
        .ok (((t.levels.set (n + 1) L1').set n { L with blocks := L.blocks.set (B (P.take n)) b' },
          idxCap (n + 1)), false) := by
      unfold insertStep
      simp only [getP_some hget, getP_some hL, getU_some hb, hslot, bind_ok, if_true, getP_some hL1, e1,
        getP_some hL', hins, setU_ok _ hblt, pure_eq_ok]
    have hV : Void N D (n + 1) (n + 1) idxCap B
        ((t.levels.set (n + 1) L1').set n { L with blocks := L.blocks.set (B (P.take n)) b' })
        (idxCap (n + 1)) := by
      constructor
      · simp [S.lv.len]
      · intro l L2 hl h
        rw [List.getElem?_set_ne (by omega), List.getElem?_set_ne (by omega)] at h
        exact S.lv.level l L2 h
      · intro l L2 hl h
        rw [List.getElem?_set_ne (by omega)] at h
        rcases lv_set_get h with ⟨rfl, rfl⟩ | ⟨h1, h⟩
        · rw [← hL1']
          have := hK1.zero (by omega)
          simp only
          rw [List.getElem?_append_left (List.getElem?_eq_some_iff.1 this).1]; exact this
        · exact (S.lv.level l L2 h).zero (by omega)
      · refine ⟨L1', ?_, ?_⟩
        · rw [List.getElem?_set_ne (by omega), List.getElem?_set_self hll1]
        · rw [← hL1']
          simp only
          rw [← hlen1]; simp
      · have : 0 < idxCap (n + 1) := by rw [idxCap_eq]; exact Nat.two_pow_pos _
        omega
    obtain ⟨lv', bi', e2, V, hsame⟩ := hV.walk hN hP hPl (D - 1 - (n + 1)) (n + 1) _ _ (by omega) (by omega)
    obtain ⟨Lt, hLt, hbt⟩ := V.here
    have hbtlt := (List.getElem?_eq_some_iff.1 hbt).1
    have hslot' : (Block.empty N).getOrZero it = .ok 0 := by
      apply getU_some; simp [Block.empty, hit]
    obtain ⟨m2, em2, -, -⟩ := setBit_spec true (Block.empty N).mask (k := it)
      (by simpa [Block.empty, width, zeroMask] using hit)
    have hins2 : (Block.empty N).insert (D - 1) it t.values.length =
        .ok ⟨m2, (Block.empty N).idx.set it (fromUsize (D - 1) t.values.length)⟩ := by
      unfold Block.insert
      rw [em2]
      simp only [bind_ok]
      rw [setU_ok _ (by simpa [Block.empty] using hit)]
      rfl
    generalize (⟨m2, (Block.empty N).idx.set it
      (fromUsize (D - 1) t.values.length)⟩ : Block) = b2 at hins2
    have hloop : constLoop 0 (D - 1) (insertStep N P) (t.levels, 0) = .ok ((lv', bi'), false) := by
      rw [constLoop_eq _ _ _ _ (by omega) (by omega)]
      have hr : rangeFromTo 0 (D - 1) = List.range n ++ (n :: List.range' (n + 1) (D - 1 - (n + 1))) := by
        have h1 : rangeFromTo 0 (D - 1) = List.range' 0 (D - 1) := by
          simp [rangeFromTo, List.range_eq_range']
        have h2 := List.range'_append_1 (s := 0) (m := n) (n := D - 1 - (n + 1) + 1)
        rw [Nat.zero_add] at h2
        rw [h1, ← List.range'_succ, List.range_eq_range', h2]
        congr 1; omega
      rw [hr, visitList_append, hwalk]
      simp only [bind_ok, Bool.false_eq_true, if_false, visitList, hstep, e2]
    refine ⟨⟨⟨lv'.set (D - 1) { Lt with blocks := Lt.blocks.set bi' b2 }, t.values ++ [some v],
      t.keys ++ [k], t.last ++ [(bi', it)]⟩, t.values.length, [], true⟩, ?_, rfl, rfl, rfl, rfl, ?_⟩
    · unfold getOrInsertImpl
      simp only [hli, bind_ok, hlast, unwrapU, hloop, getP_some hLt, getU_some hbt, hslot', if_true, hins2,
        setU_ok _ hbtlt, pure_eq_ok]
    · have := fetch_cut (B := B) hP hPl (lv := lv'.set (D - 1) { Lt with blocks := Lt.blocks.set bi' b2 })
        (by simp [V.len]) hn ?_ ?_ n 0 (by omega)
      · rw [List.take_zero, S.lv.root, List.drop_zero] at this
        exact this
      · refine hlinks _ (fun l hl => ?_) ?_
        · rw [List.getElem?_set_ne (by omega), hsame l (by omega), List.getElem?_set_ne (by omega),
            List.getElem?_set_ne (by omega)]
        · rw [List.getElem?_set_ne (by omega), hsame n (by omega), List.getElem?_set_self]
          simp [S.lv.len]; omega
      · intro l L2 hl h
        rcases lv_set_get h with ⟨rfl, rfl⟩ | ⟨h1, h⟩
        · simp only
          rw [List.getElem?_set_ne V.ne]
          exact V.zero _ _ (by omega) hLt
        · exact V.zero l L2 (by omega) h
  · rw [if_neg hnD] at hfull
    obtain rfl : D = n + 1 := by omega
    simp only [Nat.add_sub_cancel] at *
    have hloop : constLoop 0 n (insertStep N P) (t.levels, 0) = .ok ((t.levels, B (P.take n)), false) := by
      rw [constLoop_eq _ _ _ _ (by omega) (by omega)]
      have hr : rangeFromTo 0 n = List.range n := by simp [rangeFromTo]
      rw [hr, hwalk]
    rw [← hfull] at hins
    have hit' : it = P[n] := by rw [hget] at hitg; exact (Option.some.inj hitg).symm
    rw [hit'] at hlast
    refine ⟨⟨⟨t.levels.set n { L with blocks := L.blocks.set (B (P.take n)) b' }, t.values ++ [some v],
      t.keys ++ [k], t.last ++ [(B (P.take n), P[n])]⟩, t.values.length, [], true⟩, ?_, rfl, rfl, rfl, rfl, ?_⟩
    · unfold getOrInsertImpl
      simp only [hli, bind_ok, hlast, unwrapU, Nat.add_sub_cancel, hloop, getP_some hL, getU_some hb, hslot,
        if_true, hins, setU_ok _ hblt, pure_eq_ok]
    · have := fetch_cut (B := B) hP hPl (lv := t.levels.set n { L with blocks := L.blocks.set (B (P.take n)) b' })
        (by simp [S.lv.len]) hn ?_ ?_ n 0 (by omega)
      · rw [List.take_zero, S.lv.root, List.drop_zero] at this
        exact this
      · refine hlinks _ (fun l hl => ?_) ?_
        · rw [List.getElem?_set_ne (by omega)]
        · rw [List.getElem?_set_self]
          simp [S.lv.len]
      · intro l L2 hl h
        have := (List.getElem?_eq_some_iff.1 h).1
        simp [S.lv.len] at this
        omega

end

end Hibit.Sparse
