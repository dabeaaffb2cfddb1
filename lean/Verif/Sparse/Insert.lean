import Verif.Sparse.Rep
import Verif.IndexLemmas
/-!
# SparseTree: adding blocks; the descent of `get_or_insert_impl`
-/
namespace Hibit.Sparse
open Hibit

/-- Number of live paths of length `n`. -/
def liveCount (W n : Nat) (B : List Nat → Nat) : Nat :=
  ((List.range (W ^ n)).filter fun x => decide (B (path W n x) ≠ 0)).length

section
variable {N D : Nat} {cap : Nat → Nat} {lv : List Level} {B : List Nat → Nat}

/-- With an empty free list every block but the shared empty one is live. -/
theorem LevelOk.full_count {n c : Nat} {L : Level} {hole : Option (List Nat)}
    (hL : LevelOk N n c L B hole)
    (hv : ∀ p, B p ≠ 0 → ValidPath (width N) p) (he : L.rootEmpty = freeEnd) :
    L.blocks.length ≤ 1 + liveCount (width N) n B := by
  obtain ⟨fl, h1, -, -, h4⟩ := hL.free
  have hfl : fl = [] := by
    cases fl with
    | nil => rfl
    | cons f fs => exact absurd he h1.2.1
  subst hfl
  let l := (List.range (L.blocks.length - 1)).map (· + 1)
  have hnd : l.Nodup := by
    refine List.Pairwise.map _ ?_ List.nodup_range
    intro a b h; simp; exact h
  have hsub : l ⊆ ((List.range (width N ^ n)).filter fun x =>
      decide (B (path (width N) n x) ≠ 0)).map fun x => B (path (width N) n x) := by
    intro b hb
    simp only [l, List.mem_map, List.mem_range] at hb
    obtain ⟨x, hx, rfl⟩ := hb
    rcases h4 (x + 1) (by omega) (by omega) with h | ⟨p, hp, h⟩
    · simp at h
    · have hvp := hv p (by rw [h]; omega)
      have e := path_unpath hvp
      rw [hp] at e
      have hlt := unpath_lt hvp
      rw [hp] at hlt
      simp only [List.mem_map, List.mem_filter, List.mem_range]
      exact ⟨unpath (width N) p, ⟨hlt, by rw [e, h]; simp⟩, by rw [e, h]⟩
  have := hnd.length_le_of_subset hsub
  simp only [l, List.length_map, List.length_range] at this
  unfold liveCount
  omega

/-- `insert_empty_block` on a level where `q` is absent. -/
theorem LevelOk.insertEmpty {n c : Nat} {L : Level} (hN : 0 < N)
    (hL : LevelOk N n c L B none) (hn : n ≠ 0)
    (hv : ∀ p, B p ≠ 0 → ValidPath (width N) p)
    {q : List Nat} (hql : q.length = n) (hq0 : B q = 0)
    (hch : ∀ j, B (q ++ [j]) = 0)
    (hroom : liveCount (width N) n B + 2 ≤ c) :
    ∃ new L', L.insertEmpty N = .ok (new, L') ∧ new ≠ 0 ∧ new < c ∧
      LevelOk N n c L' (upd B q new) none := by
  have hs : L.single = false := by rw [hL.single]; simpa using hn
  have h0 := hL.zero hn
  have hlen0 := (List.getElem?_eq_some_iff.1 h0).1
  have hother : ∀ r b, r.length = n → BlockIs N b (fun i => B (r ++ [i]))
      (fun i => (none : Option (List Nat)) = some (r ++ [i])) → ∀ v,
      BlockIs N b (fun i => upd B q v (r ++ [i])) (fun i => (none : Option (List Nat)) = some (r ++ [i])) := by
    intro r b hr hb v
    refine hb.congr (fun _ _ e => by cases e) fun j _ _ => ?_
    rw [upd_ne]
    intro e
    have : (r ++ [j]).length = q.length := by rw [e]
    simp at this; omega
  have hnew : ∀ v, BlockIs N (Block.empty N) (fun i => upd B q v (q ++ [i]))
      (fun i => (none : Option (List Nat)) = some (q ++ [i])) := by
    intro v
    refine (BlockIs.empty N).congr (fun _ _ e => e.elim) fun j _ _ => ?_
    rw [upd_ne _ (by simp), hch j]
  obtain ⟨fl, h1, h2, h3, h4⟩ := hL.free
  have hlive : ∀ r, r.length = n → B r ≠ 0 → B r < L.blocks.length := by
    intro r hr hb
    obtain ⟨b, h, -⟩ := hL.node r (hv r hb) hr (.inr hb)
    exact (List.getElem?_eq_some_iff.1 h).1
  cases fl with
  | nil =>
    have he : L.rootEmpty = freeEnd := h1
    have hfc := hL.full_count hv he
    refine ⟨L.blocks.length, { L with blocks := L.blocks ++ [Block.empty N] }, ?_, by omega,
      by omega, ?_⟩
    · unfold Level.insertEmpty Level.popEmpty
      simp only [hs, he, if_true, Bool.false_eq_true, if_false, pure_eq_ok, bind_ok]
    · constructor
      · exact hL.single
      · intro h; exact absurd h hn
      · intro _
        simp only
        rw [List.getElem?_append_left hlen0]; exact h0
      · intro r hr hrl hlv
        by_cases e : r = q
        · subst e
          rw [upd_same]
          exact ⟨Block.empty N, by simp, hnew _⟩
        · rw [upd_ne _ e] at hlv ⊢
          obtain ⟨b, hb, hI⟩ := hL.node r hr hrl hlv
          exact ⟨b, by simp only; rw [List.getElem?_append_left (List.getElem?_eq_some_iff.1 hb).1]; exact hb,
            hother r b hrl hI _⟩
      · intro r s hr hsl he' hz
        by_cases e : r = q
        · by_cases e2 : s = q
          · rw [e, e2]
          · subst e
            rw [upd_same, upd_ne _ e2] at he'
            have := hlive s hsl (by omega)
            omega
        · rw [upd_ne _ e] at he' hz
          by_cases e2 : s = q
          · subst e2
            rw [upd_same] at he'
            have := hlive r hr hz
            omega
          · rw [upd_ne _ e2] at he'
            exact hL.inj r s hr hsl he' hz
      · refine ⟨[], he, List.nodup_nil, fun f hf => by simp at hf, fun b hb0 hb1 => .inr ?_⟩
        simp only [List.length_append, List.length_singleton] at hb1
        by_cases e : b = L.blocks.length
        · exact ⟨q, hql, by rw [upd_same, e]⟩
        · rcases h4 b hb0 (by omega) with h | ⟨r, hr, hb⟩
          · simp at h
          · exact ⟨r, hr, by rw [upd_ne]; exact hb; rintro rfl; omega⟩
      · intro _; simp; omega
  | cons f fs =>
    obtain ⟨g1, g2, next, g3, g4⟩ := h1
    have hflt := (List.getElem?_eq_some_iff.1 g3).1
    have hf0 := (h3 f (by simp)).1
    have hfq : ∀ r, r.length = n → B r ≠ f := (h3 f (by simp)).2
    have hcap := hL.cap hn
    rw [List.nodup_cons] at h2
    have hmask : (freeBlock N next).mask[0]? = some next := by simp [freeBlock]
    have hset : setU (freeBlock N next).mask 0 0 = .ok (Block.empty N).mask := by
      rw [setU_ok _ (by simp [freeBlock])]
      congr 1
      obtain ⟨k, rfl⟩ : ∃ k, N = k + 1 := ⟨N - 1, by omega⟩
      simp [Block.empty, zeroMask, freeBlock, List.replicate_succ]
    refine ⟨f, ⟨L.single, L.blocks.set f (Block.empty N), next⟩, ?_, hf0, by omega, ?_⟩
    · unfold Level.insertEmpty Level.popEmpty
      simp only [hs, if_neg g2, Bool.false_eq_true, if_false, g1, getU_some g3, bind_ok,
        getU_some hmask, hset, setU_ok _ hflt, pure_eq_ok]
      rfl
    · constructor
      · exact hL.single
      · intro h; exact absurd h hn
      · intro _
        simp only [getElem?_set_if hflt, if_neg (fun e => hf0 (Eq.symm e) : ¬ 0 = f)]
        exact h0
      · intro r hr hrl hlv
        by_cases e : r = q
        · subst e
          rw [upd_same]
          exact ⟨Block.empty N, by simp [hflt], hnew _⟩
        · rw [upd_ne _ e] at hlv ⊢
          obtain ⟨b, hb, hI⟩ := hL.node r hr hrl hlv
          exact ⟨b, by simp only [getElem?_set_if hflt]; rw [if_neg (hfq r hrl)]; exact hb,
            hother r b hrl hI _⟩
      · intro r s hr hsl he' hz
        by_cases e : r = q
        · by_cases e2 : s = q
          · rw [e, e2]
          · subst e
            rw [upd_same, upd_ne _ e2] at he'
            exact absurd he'.symm (hfq s hsl)
        · rw [upd_ne _ e] at he' hz
          by_cases e2 : s = q
          · subst e2
            rw [upd_same] at he'
            exact absurd he' (hfq r hr)
          · rw [upd_ne _ e2] at he'
            exact hL.inj r s hr hsl he' hz
      · refine ⟨fs, g4.congr ?_, h2.2, fun x hx => ⟨(h3 x (by simp [hx])).1, fun r hr => ?_⟩,
          fun b hb0 hb1 => ?_⟩
        · intro x hx
          simp only [getElem?_set_if hflt]
          rw [if_neg]
          rintro rfl; exact h2.1 hx
        · by_cases e : r = q
          · subst e
            rw [upd_same]
            rintro rfl; exact h2.1 hx
          · rw [upd_ne _ e]
            exact (h3 x (by simp [hx])).2 r hr
        · rcases h4 b hb0 (by simpa using hb1) with h | ⟨r, hr, hb⟩
          · simp only [List.mem_cons] at h
            rcases h with rfl | h
            · exact .inr ⟨q, hql, upd_same _ _ _⟩
            · exact .inl h
          · exact .inr ⟨r, hr, by rw [upd_ne]; exact hb; rintro rfl; omega⟩
      · intro _; simpa using hcap

/-- Adding the block of the absent path `p ++ [i]`. -/
theorem LvRep.addBlock (hN : 0 < N) (H : LvRep N D cap lv B none) {p : List Nat} {i : Nat}
    {L L1 : Level} (hp : ValidPath (width N) p) (hi : i < width N) (hl : p.length + 1 < D)
    (hlive : p = [] ∨ B p ≠ 0) (habs : B (p ++ [i]) = 0)
    (hL : lv[p.length]? = some L) (hL1 : lv[p.length + 1]? = some L1)
    (hroom : liveCount (width N) (p.length + 1) B + 2 ≤ cap (p.length + 1))
    (hcap : cap (p.length + 1) ≤ 2 ^ idxBits p.length) :
    ∃ new L1' b b', L1.insertEmpty N = .ok (new, L1') ∧ new ≠ 0 ∧
      L.blocks[B p]? = some b ∧ b.insert p.length i new = .ok b' ∧
      LvRep N D cap ((lv.set (p.length + 1) L1').set p.length
        { L with blocks := L.blocks.set (B p) b' }) (upd B (p ++ [i]) new) none := by
  have hk := H.level _ _ hL
  have hk1 := H.level _ _ hL1
  have hch : ∀ j, B (p ++ [i] ++ [j]) = 0 := fun j => H.absent _ j (by simp) habs
  obtain ⟨new, L1', e1, hne, hlt, hk1'⟩ := hk1.insertEmpty hN (by omega)
    (fun p h => (H.valid p h).1) (q := p ++ [i]) (by simp) habs hch hroom
  obtain ⟨b, hb, hbI⟩ := H.block hp hL
  have hbI' : BlockIs N b (fun j => B (p ++ [j])) (fun _ => False) :=
    hbI.congr (fun _ _ e => by cases e) fun _ _ _ => rfl
  obtain ⟨b', e2, hb'⟩ := hbI'.insert hi hne (Nat.lt_of_lt_of_le hlt hcap)
  refine ⟨new, L1', b, b', e1, hne, hb, e2, ?_⟩
  constructor
  · simpa using H.len
  · rw [upd_ne _ (by simp)]; exact H.root
  · intro q hq
    by_cases e : q = p ++ [i]
    · subst e; exact ⟨hp.append hi, by simp; omega⟩
    · rw [upd_ne _ e] at hq; exact H.valid q hq
  · intro q j hq h
    by_cases e : q = p ++ [i]
    · rw [e, upd_same] at h; exact absurd h hne
    · rw [upd_ne _ e] at h
      rw [upd_ne]
      · exact H.absent q j hq h
      · intro e'
        obtain ⟨rfl, rfl⟩ := append_singleton_inj.1 e'
        rcases hlive with h1 | h1
        · exact hq h1
        · exact h1 h
  · intro n L' h
    rcases lv_set_get h with ⟨rfl, rfl⟩ | ⟨hne', h'⟩
    · refine hk.setBlock rfl ?_ (List.getElem?_eq_some_iff.1 hb).1 (fun q hq => upd_ne _ ?_) ?_ ?_
      · rcases hlive with e | e
        · exact .inl (by simp [e])
        · exact .inr e
      · intro e; rw [e] at hq; simp at hq
      · refine hb'.congr (fun _ _ e => e.1.elim) fun j hj _ => ?_
        by_cases e : j = i
        · subst e; simp [upd_same]
        · rw [if_neg e, upd_ne]
          intro e'; exact e (append_singleton_inj.1 e').2
      · intro q b _ _ hne _ hq
        refine hq.congr (fun _ _ e => by cases e) fun j hj _ => ?_
        rw [upd_ne]
        intro e'; exact hne (append_singleton_inj.1 e').1
    · rcases lv_set_get h' with ⟨rfl, rfl⟩ | ⟨hne2, h2⟩
      · exact hk1'
      · refine (H.level n L' h2).congr (fun q hq => upd_ne _ ?_) ?_
        · intro e; rw [e] at hq; simp at hq; omega
        · intro q b _ hql _ hq
          refine hq.congr (fun _ _ e => by cases e) fun j hj _ => ?_
          rw [upd_ne]
          intro e'; apply hne'; rw [← hql, (append_singleton_inj.1 e').1]

/-! ## The descent of `get_or_insert_impl` -/

/-- One step of the descent along `P`. -/
theorem insertStep_spec (hN : 0 < N) (H : LvRep N D cap lv B none) {P : List Nat}
    (hP : ValidPath (width N) P) (hPl : P.length = D) {n : Nat} (hn : n + 1 < D)
    (hlive : n = 0 ∨ B (P.take n) ≠ 0)
    (hroom : B (P.take (n + 1)) = 0 →
      liveCount (width N) (n + 1) B + 2 ≤ cap (n + 1))
    (hcap : cap (n + 1) ≤ 2 ^ idxBits n) :
    ∃ lv' B', insertStep N P (lv, B (P.take n)) n = .ok ((lv', B' (P.take (n + 1))), false) ∧
      LvRep N D cap lv' B' none ∧ B' (P.take (n + 1)) ≠ 0 ∧
      ∀ q, q ≠ P.take (n + 1) ∨ B q ≠ 0 → B' q = B q := by
  have hnP : n < P.length := by omega
  have hget : P[n]? = some P[n] := List.getElem?_eq_getElem hnP
  have htk := take_succ_of_getElem? hget
  have hi : P[n] < width N := hP _ (List.getElem_mem _)
  generalize P[n] = i at hget htk hi
  have hp : ValidPath (width N) (P.take n) := hP.take n
  have hpl : (P.take n).length = n := by simp; omega
  rw [htk] at hroom ⊢
  generalize P.take n = p at *
  subst hpl
  obtain ⟨L, hL, hk⟩ := H.get (n := p.length) (by omega)
  obtain ⟨L1, hL1, -⟩ := H.get hn
  obtain ⟨b, hb, hbI⟩ := H.block hp hL
  have hc := hbI.get hi (by simp)
  have hlive' : p = [] ∨ B p ≠ 0 := by
    rcases hlive with h | h
    · exact .inl (List.length_eq_zero_iff.1 h)
    · exact .inr h
  unfold insertStep
  simp only [getP_some hget, getP_some hL, getU_some hb, hc, bind_ok]
  by_cases h0 : B (p ++ [i]) = 0
  · obtain ⟨new, L1', b1, b', e1, hne, hb1, e2, H'⟩ := H.addBlock hN hp hi hn hlive' h0 hL hL1
      (hroom h0) hcap
    rw [hb] at hb1
    cases hb1
    have hL' : (lv.set (p.length + 1) L1')[p.length]? = some L := by
      rw [List.getElem?_set_ne (by omega)]; exact hL
    refine ⟨_, upd B (p ++ [i]) new, ?_, H', by rw [upd_same]; exact hne, fun q hq => upd_ne _ ?_⟩
    · rw [if_pos h0]
      simp only [getP_some hL1, bind_ok, e1, getP_some hL', getU_some hb, e2,
        setU_ok _ (List.getElem?_eq_some_iff.1 hb).1, pure_eq_ok, upd_same]
    · rcases hq with h | h
      · exact h
      · rintro rfl; exact h h0
  · refine ⟨lv, B, ?_, H, h0, fun q _ => rfl⟩
    rw [if_neg h0]; rfl

/-- The whole descent. -/
theorem insertWalk_spec (hN : 0 < N) (H : LvRep N D cap lv B none) {P : List Nat}
    (hP : ValidPath (width N) P) (hPl : P.length = D) (hD : 1 ≤ D) (h9 : D ≤ 9)
    (hroom : ∀ n, n + 1 < D → B (P.take (n + 1)) = 0 →
      liveCount (width N) (n + 1) B + 2 ≤ cap (n + 1))
    (hcap : ∀ n, n + 1 < D → cap (n + 1) ≤ 2 ^ idxBits n) :
    ∃ lv' B', constLoop 0 (D - 1) (insertStep N P) (lv, 0) =
        .ok ((lv', B' (P.take (D - 1))), false) ∧
      LvRep N D cap lv' B' none ∧ (D = 1 ∨ B' (P.take (D - 1)) ≠ 0) ∧
      (∀ q, (∀ n, 1 ≤ n → n < D → q ≠ P.take n) → B' q = B q) ∧
      (∀ n, 1 ≤ n → n < D → B' (P.take n) ≠ 0) ∧
      ∀ q, B q ≠ 0 → B' q = B q := by
  rw [constLoop_eq _ _ _ _ (by omega) (by omega)]
  have hr : rangeFromTo 0 (D - 1) = List.range (D - 1) := by simp [rangeFromTo]
  rw [hr]
  have key : ∀ n, n + 1 ≤ D → ∃ lv' B', visitList (insertStep N P) (List.range n) (lv, 0) =
        .ok ((lv', B' (P.take n)), false) ∧
      LvRep N D cap lv' B' none ∧ (n = 0 ∨ B' (P.take n) ≠ 0) ∧
      (∀ q, (∀ m, 1 ≤ m → m ≤ n → q ≠ P.take m) → B' q = B q) ∧
      (∀ m, 1 ≤ m → m ≤ n → B' (P.take m) ≠ 0) ∧ ∀ q, B q ≠ 0 → B' q = B q := by
    intro n
    induction n with
    | zero =>
      intro _
      exact ⟨lv, B, by simp [visitList, H.root], H, .inl rfl, fun _ _ => rfl, fun m h1 h2 => by omega,
        fun _ _ => rfl⟩
    | succ n ih =>
      intro hn
      obtain ⟨lv1, B1, e1, H1, hl1, hs1, hb1, hz1⟩ := ih (by omega)
      have htne : ∀ m, m ≤ n → P.take (n + 1) ≠ P.take m := by
        intro m hm e
        have : (P.take (n + 1)).length = (P.take m).length := by rw [e]
        simp at this; omega
      have hsame : B1 (P.take (n + 1)) = B (P.take (n + 1)) :=
        hs1 _ (fun m _ h2 => htne m h2)
      have hcount : liveCount (width N) (n + 1) B1 = liveCount (width N) (n + 1) B := by
        unfold liveCount
        congr 1
        apply List.filter_congr
        intro x _
        rw [hs1]
        intro m h1 h2 e
        have : (path (width N) (n + 1) x).length = (P.take m).length := by rw [e]
        simp at this; omega
      obtain ⟨lv2, B2, e2, H2, hl2, hs2⟩ := insertStep_spec hN H1 hP hPl (n := n) (by omega) hl1
        (by rw [hsame, hcount]; exact hroom n (by omega)) (hcap n (by omega))
      refine ⟨lv2, B2, ?_, H2, .inr hl2, ?_, ?_, ?_⟩
      · rw [List.range_succ, visitList_append, e1]
        simp only [bind_ok, Bool.false_eq_true, if_false, visitList, e2]
      · intro q hq
        rw [hs2 q (.inl (hq (n + 1) (by omega) (by omega))), hs1 q (fun m g1 g2 => hq m g1 (by omega))]
      · intro m g1 g2
        by_cases e : m = n + 1
        · rw [e]; exact hl2
        · rw [hs2]
          · exact hb1 m g1 (by omega)
          · exact .inl fun e' => htne m (by omega) e'.symm
      · intro q hq
        rw [hs2 q (.inr (by rw [hz1 q hq]; exact hq))]; exact hz1 q hq
  obtain ⟨lv', B', e, H', hl, hs, hb, hz⟩ := key (D - 1) (by omega)
  refine ⟨lv', B', e, H', by rcases hl with h | h; exact .inl (by omega); exact .inr h, ?_, ?_, hz⟩
  · intro q hq; exact hs q (fun m g1 g2 => hq m g1 (by omega))
  · intro m g1 g2; exact hb m g1 (by omega)

end

end Hibit.Sparse
