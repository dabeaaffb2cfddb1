import Verif.Sparse.Model
import Verif.Bits.Lemmas
import Verif.ListLemmas
import Verif.IterLemmas
/-!
# SparseTree: the representation of the level storage

A ghost function `B` from paths to block positions describes the level storage: `B p` is the
position (in level `p.length`) of the block of path `p`, or of the value for a full path; 0 means
absent (or the root for the empty path).
-/
namespace Hibit.Sparse
open Hibit

/-- `B` with the position of path `p` replaced. -/
def upd (B : List Nat → Nat) (p : List Nat) (v : Nat) : List Nat → Nat :=
  fun q => if q = p then v else B q

theorem upd_same (B : List Nat → Nat) (p : List Nat) (v : Nat) : upd B p v p = v := by simp [upd]
theorem upd_ne {B : List Nat → Nat} {p q : List Nat} (v : Nat) (h : q ≠ p) :
    upd B p v q = B q := by simp [upd, h]

/-- The block `b` has children `f`, except that nothing is said about the slots in `X`. -/
structure BlockIs (N : Nat) (b : Block) (f : Nat → Nat) (X : Nat → Prop) : Prop where
  mlen : b.mask.length = N
  ilen : b.idx.length = width N
  slot : ∀ i, i < width N → ¬ X i → b.idx[i]? = some (f i) ∧ b.mask.bit i = decide (f i ≠ 0)

theorem BlockIs.congr {N : Nat} {b : Block} {f g : Nat → Nat} {X Y : Nat → Prop}
    (h : BlockIs N b f X) (hx : ∀ i, i < width N → X i → Y i)
    (hf : ∀ i, i < width N → ¬ Y i → f i = g i) : BlockIs N b g Y :=
  ⟨h.mlen, h.ilen, fun i hi hy => by
    rw [← hf i hi hy]; exact h.slot i hi (fun hxi => hy (hx i hi hxi))⟩

theorem BlockIs.empty (N : Nat) : BlockIs N (Block.empty N) (fun _ => 0) (fun _ => False) :=
  ⟨by simp [Block.empty], by simp [Block.empty], fun i hi _ => by
    simp [Block.empty, hi]⟩

theorem BlockIs.eq_empty {N : Nat} {b : Block} (h : BlockIs N b (fun _ => 0) (fun _ => False)) :
    b = Block.empty N := by
  obtain ⟨m, ix⟩ := b
  have h1 := h.mlen
  have h2 := h.ilen
  simp only at h1 h2
  unfold Block.empty
  congr
  · apply Mask.ext (by simp [h1])
    intro i hi
    rw [bit_zeroMask]
    have := (h.slot i (by unfold width; rw [← h1]; exact hi) (fun e => e)).2
    simpa using this
  · apply List.ext_getElem?
    intro i
    rw [List.getElem?_replicate]
    by_cases hi : i < width N
    · rw [if_pos hi]; exact (h.slot i hi (fun e => e)).1
    · rw [if_neg hi, List.getElem?_eq_none_iff, h2]; omega

theorem BlockIs.get {N : Nat} {b : Block} {f : Nat → Nat} {X : Nat → Prop} (h : BlockIs N b f X)
    {i : Nat} (hi : i < width N) (hX : ¬ X i) : b.getOrZero i = .ok (f i) :=
  getU_some (h.slot i hi hX).1

theorem BlockIs.isEmpty {N : Nat} {b : Block} {f : Nat → Nat}
    (h : BlockIs N b f (fun _ => False)) :
    b.isEmpty = true ↔ ∀ i, i < width N → f i = 0 := by
  unfold Block.isEmpty
  rw [isZero_iff]
  constructor
  · intro hz i hi
    have := (h.slot i hi (fun e => e)).2
    rw [hz i] at this
    simpa using this.symm
  · intro hf i
    by_cases hi : i < width N
    · rw [(h.slot i hi (fun e => e)).2, hf i hi]; rfl
    · exact bit_of_ge (by rw [h.mlen]; unfold width at hi; omega)

theorem fromUsize_of_lt {n i : Nat} (h : i < 2 ^ idxBits n) : fromUsize n i = i :=
  Nat.mod_eq_of_lt h

theorem getElem?_set_if {α : Type} {l : List α} {i j : Nat} {a : α} (h : i < l.length) :
    (l.set i a)[j]? = if j = i then some a else l[j]? := by
  by_cases e : j = i
  · subst e; simp [h]
  · rw [if_neg e, List.getElem?_set_ne (fun x => e x.symm)]

theorem BlockIs.insert {N : Nat} {b : Block} {f : Nat → Nat} {X : Nat → Prop}
    (h : BlockIs N b f X) {n i v : Nat} (hi : i < width N) (hv : v ≠ 0) (hb : v < 2 ^ idxBits n) :
    ∃ b', b.insert n i v = .ok b' ∧
      BlockIs N b' (fun j => if j = i then v else f j) (fun j => X j ∧ j ≠ i) := by
  obtain ⟨m', e, hl, hbit⟩ := setBit_spec true b.mask (k := i)
    (by rw [h.mlen]; exact hi)
  unfold Block.insert
  rw [e]
  simp only [bind_ok]
  rw [setU_ok _ (by rw [h.ilen]; exact hi)]
  refine ⟨_, rfl, by simp only; rw [hl, h.mlen], by simp [h.ilen], fun j hj hX => ?_⟩
  simp only
  rw [getElem?_set_if (by rw [h.ilen]; exact hi), hbit j (by rw [h.mlen]; exact hj)]
  by_cases e' : j = i
  · subst e'
    simp [fromUsize_of_lt hb, hv]
  · simp only [if_neg e']
    exact h.slot j hj (fun hx => hX ⟨hx, e'⟩)

theorem BlockIs.remove {N : Nat} {b : Block} {f : Nat → Nat} {X : Nat → Prop}
    (h : BlockIs N b f X) {i : Nat} (hi : i < width N) :
    ∃ b', b.remove i = .ok b' ∧
      BlockIs N b' (fun j => if j = i then 0 else f j) (fun j => X j ∧ j ≠ i) := by
  obtain ⟨m', e, hl, hbit⟩ := setBit_spec false b.mask (k := i)
    (by rw [h.mlen]; exact hi)
  unfold Block.remove
  rw [e]
  simp only [bind_ok]
  rw [setU_ok _ (by rw [h.ilen]; exact hi)]
  refine ⟨_, rfl, by simp only; rw [hl, h.mlen], by simp [h.ilen], fun j hj hX => ?_⟩
  simp only
  rw [getElem?_set_if (by rw [h.ilen]; exact hi), hbit j (by rw [h.mlen]; exact hj)]
  by_cases e' : j = i
  · subst e'
    simp
  · simp only [if_neg e']
    exact h.slot j hj (fun hx => hX ⟨hx, e'⟩)

theorem BlockIs.set {N : Nat} {b : Block} {f : Nat → Nat} {X : Nat → Prop}
    (h : BlockIs N b f X) {n i v : Nat} (hi : i < width N) (hX : ¬ X i) (hf : f i ≠ 0) (hv : v ≠ 0)
    (hb : v < 2 ^ idxBits n) :
    ∃ b', b.set n i v = .ok b' ∧ BlockIs N b' (fun j => if j = i then v else f j) X := by
  unfold Block.set
  rw [setU_ok _ (by rw [h.ilen]; exact hi)]
  refine ⟨_, rfl, h.mlen, by simp [h.ilen], fun j hj hXj => ?_⟩
  simp only
  rw [getElem?_set_if (by rw [h.ilen]; exact hi)]
  have := h.slot j hj hXj
  by_cases e' : j = i
  · subst e'
    simp only [if_pos, fromUsize_of_lt hb, true_and]
    rw [this.2]
    simp [hf, hv]
  · simp only [if_neg e']
    exact this

/-! ## Levels -/

/-- A block in the free list with link `next`. -/
def freeBlock (N : Nat) (next : Word) : Block :=
  ⟨next :: List.replicate (N - 1) 0, List.replicate (width N) 0⟩

/-- The free list starting at `r` consists of the blocks `fl`. -/
def Chain (N : Nat) (blocks : List Block) : List Nat → Word → Prop
  | [], r => r = freeEnd
  | f :: fs, r => r.toNat = f ∧ r ≠ freeEnd ∧
    ∃ next, blocks[f]? = some (freeBlock N next) ∧ Chain N blocks fs next

theorem Chain.congr {N : Nat} {bs bs' : List Block} : ∀ {fl : List Nat} {r : Word},
    Chain N bs fl r → (∀ f ∈ fl, bs'[f]? = bs[f]?) → Chain N bs' fl r
  | [], _, h, _ => h
  | f :: fs, _, ⟨h1, h2, next, h3, h4⟩, hb =>
    ⟨h1, h2, next, by rw [hb f (by simp)]; exact h3, h4.congr (fun x hx => hb x (by simp [hx]))⟩

theorem Chain.lt {N : Nat} {bs : List Block} : ∀ {fl : List Nat} {r : Word},
    Chain N bs fl r → ∀ f ∈ fl, f < bs.length
  | [], _, _, f, hf => by simp at hf
  | g :: fs, _, ⟨_, _, next, h3, h4⟩, f, hf => by
    simp only [List.mem_cons] at hf
    rcases hf with rfl | hf
    · exact (List.getElem?_eq_some_iff.1 h3).1
    · exact h4.lt f hf

/-- One level of the storage. `hole`: the slot of this path in its parent's block is unspecified. -/
structure LevelOk (N n cap : Nat) (L : Level) (B : List Nat → Nat) (hole : Option (List Nat)) :
    Prop where
  single : L.single = (n == 0)
  one : n = 0 → L.blocks.length = 1
  zero : n ≠ 0 → L.blocks[0]? = some (Block.empty N)
  node : ∀ p, ValidPath (width N) p → p.length = n → (n = 0 ∨ B p ≠ 0) →
    ∃ b, L.blocks[B p]? = some b ∧
      BlockIs N b (fun i => B (p ++ [i])) (fun i => hole = some (p ++ [i]))
  inj : ∀ p q, p.length = n → q.length = n → B p = B q → B p ≠ 0 → p = q
  free : ∃ fl, Chain N L.blocks fl L.rootEmpty ∧ fl.Nodup ∧
    (∀ f ∈ fl, f ≠ 0 ∧ ∀ p, p.length = n → B p ≠ f) ∧
    ∀ b, 0 < b → b < L.blocks.length → b ∈ fl ∨ ∃ p, p.length = n ∧ B p = b
  cap : n ≠ 0 → L.blocks.length ≤ cap

/-- The level storage `lv` is described by `B`. -/
structure LvRep (N D : Nat) (cap : Nat → Nat) (lv : List Level) (B : List Nat → Nat)
    (hole : Option (List Nat)) : Prop where
  len : lv.length = D
  root : B [] = 0
  valid : ∀ p, B p ≠ 0 → ValidPath (width N) p ∧ p.length ≤ D
  absent : ∀ p i, p ≠ [] → B p = 0 → B (p ++ [i]) = 0
  level : ∀ n L, lv[n]? = some L → LevelOk N n (cap n) L B hole

section
variable {N D : Nat} {cap : Nat → Nat} {lv : List Level} {B : List Nat → Nat}
  {hole : Option (List Nat)}

theorem LvRep.get (H : LvRep N D cap lv B hole) {n : Nat} (hn : n < D) :
    ∃ L, lv[n]? = some L ∧ LevelOk N n (cap n) L B hole := by
  have : n < lv.length := by rw [H.len]; exact hn
  exact ⟨_, List.getElem?_eq_getElem this, H.level n _ (List.getElem?_eq_getElem this)⟩

/-- The block of any path (the shared empty block for absent ones). -/
theorem LvRep.block (H : LvRep N D cap lv B hole) {p : List Nat} {L : Level}
    (hp : ValidPath (width N) p) (hL : lv[p.length]? = some L) :
    ∃ b, L.blocks[B p]? = some b ∧
      BlockIs N b (fun i => B (p ++ [i])) (fun i => hole = some (p ++ [i])) := by
  have hk := H.level _ _ hL
  by_cases h : p.length = 0 ∨ B p ≠ 0
  · exact hk.node p hp rfl h
  · have h1 : p.length ≠ 0 := fun e => h (.inl e)
    have h2 : B p = 0 := Classical.byContradiction fun e => h (.inr e)
    rw [h2]
    refine ⟨_, hk.zero h1, (BlockIs.empty N).congr (fun _ _ e => e.elim) fun i _ _ => ?_⟩
    exact (H.absent p i (fun e => h1 (by simp [e])) h2).symm

theorem LvRep.parent_live (H : LvRep N D cap lv B hole) {p : List Nat} {i : Nat}
    (h : B (p ++ [i]) ≠ 0) : p = [] ∨ B p ≠ 0 := by
  by_cases e : p = []
  · exact .inl e
  · exact .inr (fun h0 => h (H.absent p i e h0))

/-- Changing one block of level `n` (the block of the live path `p`): the rest of that level. -/
theorem LevelOk.setBlock {n c : Nat} {L : Level} (hL : LevelOk N n c L B hole)
    {p : List Nat} (hpl : p.length = n) (hlive : n = 0 ∨ B p ≠ 0) {b' : Block}
    {B' : List Nat → Nat} {hole' : Option (List Nat)}
    (hlt : B p < L.blocks.length)
    (hsame : ∀ q, q.length = n → B' q = B q)
    (hb : BlockIs N b' (fun i => B' (p ++ [i])) (fun i => hole' = some (p ++ [i])))
    (hother : ∀ q b, ValidPath (width N) q → q.length = n → q ≠ p → (n = 0 ∨ B q ≠ 0) →
      BlockIs N b (fun i => B (q ++ [i])) (fun i => hole = some (q ++ [i])) →
      BlockIs N b (fun i => B' (q ++ [i])) (fun i => hole' = some (q ++ [i]))) :
    LevelOk N n c { L with blocks := L.blocks.set (B p) b' } B' hole' where
  single := hL.single
  one h := by simpa using hL.one h
  zero h := by
    have h0 : B p ≠ 0 := by rcases hlive with e | e; exact absurd e h; exact e
    simp only [getElem?_set_if hlt, if_neg (fun e => h0 (Eq.symm e) : ¬ 0 = B p)]
    exact hL.zero h
  node q hq hql hl := by
    rw [hsame q hql] at hl ⊢
    simp only [getElem?_set_if hlt]
    by_cases e : q = p
    · subst e
      exact ⟨b', by simp, hb⟩
    · have hne : B q ≠ B p := by
        intro h
        rcases hlive with h0 | h0
        · apply e
          rw [List.length_eq_zero_iff.1 (hql.trans h0), List.length_eq_zero_iff.1 (hpl.trans h0)]
        · exact e (hL.inj q p hql hpl h (by rw [h]; exact h0))
      rw [if_neg hne]
      obtain ⟨b, h1, h2⟩ := hL.node q hq hql hl
      exact ⟨b, h1, hother q b hq hql e hl h2⟩
  inj q r hq hr := by
    rw [hsame q hq, hsame r hr]; exact hL.inj q r hq hr
  free := by
    obtain ⟨fl, h1, h2, h3, h4⟩ := hL.free
    refine ⟨fl, h1.congr (fun f hf => ?_), h2, fun f hf => ⟨(h3 f hf).1, fun q hq => ?_⟩,
      fun b hb0 hb1 => ?_⟩
    · simp only [getElem?_set_if hlt]
      rw [if_neg]
      exact fun e => (h3 f hf).2 p hpl e.symm
    · rw [hsame q hq]; exact (h3 f hf).2 q hq
    · rcases h4 b hb0 (by simpa using hb1) with h | ⟨q, hq, h⟩
      · exact .inl h
      · exact .inr ⟨q, hq, by rw [hsame q hq]; exact h⟩
  cap h := by simpa using hL.cap h

/-- A level whose positions and children are unaffected. -/
theorem LevelOk.congr {n c : Nat} {L : Level} (hL : LevelOk N n c L B hole)
    {B' : List Nat → Nat} {hole' : Option (List Nat)}
    (hsame : ∀ q, q.length = n → B' q = B q)
    (hother : ∀ q b, ValidPath (width N) q → q.length = n → (n = 0 ∨ B q ≠ 0) →
      BlockIs N b (fun i => B (q ++ [i])) (fun i => hole = some (q ++ [i])) →
      BlockIs N b (fun i => B' (q ++ [i])) (fun i => hole' = some (q ++ [i]))) :
    LevelOk N n c L B' hole' where
  single := hL.single
  one := hL.one
  zero := hL.zero
  node q hq hql hl := by
    rw [hsame q hql] at hl ⊢
    obtain ⟨b, h1, h2⟩ := hL.node q hq hql hl
    exact ⟨b, h1, hother q b hq hql hl h2⟩
  inj q r hq hr := by rw [hsame q hq, hsame r hr]; exact hL.inj q r hq hr
  free := by
    obtain ⟨fl, h1, h2, h3, h4⟩ := hL.free
    refine ⟨fl, h1, h2, fun f hf => ⟨(h3 f hf).1, fun q hq => ?_⟩, fun b hb0 hb1 => ?_⟩
    · rw [hsame q hq]; exact (h3 f hf).2 q hq
    · rcases h4 b hb0 hb1 with h | ⟨q, hq, h⟩
      · exact .inl h
      · exact .inr ⟨q, hq, by rw [hsame q hq]; exact h⟩
  cap := hL.cap

/-! ## Micro steps -/

theorem lv_set_get {lv : List Level} {n m : Nat} {L L' : Level} (h : (lv.set n L)[m]? = some L') :
    (m = n ∧ L' = L) ∨ (m ≠ n ∧ lv[m]? = some L') := by
  by_cases e : m = n
  · subst e
    left
    refine ⟨rfl, ?_⟩
    obtain ⟨hl, h'⟩ := List.getElem?_eq_some_iff.1 h
    simpa using h'.symm
  · right
    rw [List.getElem?_set_ne (fun x => e x.symm)] at h
    exact ⟨e, h⟩

/-- Pointing the slot of a full path to the value `v` (insertion or redirection). -/
theorem LvRep.setValue (H : LvRep N D cap lv B none) {p : List Nat} {i v : Nat} {L : Level}
    (hp : ValidPath (width N) p) (hi : i < width N) (hl : p.length + 1 = D) (hv : v ≠ 0)
    (hlive : p = [] ∨ B p ≠ 0) (hL : lv[p.length]? = some L) {b' : Block}
    (hb : BlockIs N b' (fun j => if j = i then v else B (p ++ [j])) (fun _ => False)) :
    LvRep N D cap (lv.set p.length { L with blocks := L.blocks.set (B p) b' })
      (upd B (p ++ [i]) v) none where
  len := by simpa using H.len
  root := by rw [upd_ne _ (by simp)]; exact H.root
  valid q hq := by
    by_cases e : q = p ++ [i]
    · subst e; exact ⟨hp.append hi, by simp; omega⟩
    · rw [upd_ne _ e] at hq; exact H.valid q hq
  absent q j hq h := by
    have e : q ≠ p ++ [i] := fun e => by rw [e, upd_same] at h; exact hv h
    rw [upd_ne _ e] at h
    rw [upd_ne]
    · exact H.absent q j hq h
    · intro e'
      obtain ⟨rfl, rfl⟩ := append_singleton_inj.1 e'
      rcases hlive with h1 | h1
      · exact hq h1
      · exact h1 h
  level n L' h := by
    have hk := H.level _ _ hL
    obtain ⟨b0, hb0, -⟩ := H.block hp hL
    rcases lv_set_get h with ⟨rfl, rfl⟩ | ⟨hne, h'⟩
    · refine hk.setBlock rfl ?_ (List.getElem?_eq_some_iff.1 hb0).1 (fun q hq => upd_ne _ ?_) ?_ ?_
      · rcases hlive with e | e
        · exact .inl (by simp [e])
        · exact .inr e
      · intro e; rw [e] at hq; simp at hq
      · refine hb.congr (fun _ _ e => e.elim) fun j hj _ => ?_
        by_cases e : j = i
        · subst e; simp [upd_same]
        · rw [if_neg e, upd_ne]
          intro e'; exact e (append_singleton_inj.1 e').2
      · intro q b _ _ hne _ hq
        refine hq.congr (fun _ _ e => by cases e) fun j hj _ => ?_
        rw [upd_ne]
        intro e'; exact hne (append_singleton_inj.1 e').1
    · have hnD : n < D := by rw [← H.len]; exact (List.getElem?_eq_some_iff.1 h').1
      refine (H.level n L' h').congr (fun q hq => upd_ne _ ?_) ?_
      · intro e; rw [e] at hq; simp at hq; omega
      · intro q b _ hql _ hq
        refine hq.congr (fun _ _ e => by cases e) fun j hj _ => ?_
        rw [upd_ne]
        intro e'; apply hne; rw [← hql, (append_singleton_inj.1 e').1]

/-- Forgetting the value of a full path; its slot becomes a hole. -/
theorem LvRep.dropValue (H : LvRep N D cap lv B none) {P : List Nat} (hl : P.length = D)
    (hD : 0 < D) : LvRep N D cap lv (upd B P 0) (some P) where
  len := H.len
  root := by
    rw [upd_ne _ (by intro e; rw [← e] at hl; simp at hl; omega)]; exact H.root
  valid q hq := by
    by_cases e : q = P
    · rw [e, upd_same] at hq; exact absurd rfl hq
    · rw [upd_ne _ e] at hq; exact H.valid q hq
  absent q j hq h := by
    by_cases e' : q ++ [j] = P
    · rw [e', upd_same]
    · rw [upd_ne _ e']
      by_cases e : q = P
      · subst e
        apply Classical.byContradiction
        intro hc
        have := (H.valid _ hc).2
        simp at this; omega
      · rw [upd_ne _ e] at h
        exact H.absent q j hq h
  level n L h := by
    have hnD : n < D := by rw [← H.len]; exact (List.getElem?_eq_some_iff.1 h).1
    refine (H.level n L h).congr (fun q hq => upd_ne _ ?_) ?_
    · intro e; rw [e] at hq; omega
    · intro q b _ hql _ hq
      refine hq.congr (fun _ _ e => by cases e) fun j hj hY => ?_
      rw [upd_ne]
      intro e; exact hY (by rw [e])

/-- Clearing the slot in the hole. -/
theorem LvRep.clear {p : List Nat} {i : Nat} (H : LvRep N D cap lv B (some (p ++ [i])))
    {L : Level} (hp : ValidPath (width N) p)
    (hlive : p = [] ∨ B p ≠ 0)
    (hL : lv[p.length]? = some L) {b' : Block}
    (hb : BlockIs N b' (fun j => B (p ++ [j])) (fun _ => False)) :
    LvRep N D cap (lv.set p.length { L with blocks := L.blocks.set (B p) b' }) B none where
  len := by simpa using H.len
  root := H.root
  valid := H.valid
  absent := H.absent
  level n L' h := by
    have hk := H.level _ _ hL
    obtain ⟨b0, hb0, -⟩ := H.block hp hL
    rcases lv_set_get h with ⟨rfl, rfl⟩ | ⟨hne, h'⟩
    · refine hk.setBlock rfl ?_ (List.getElem?_eq_some_iff.1 hb0).1 (fun q hq => rfl) ?_ ?_
      · rcases hlive with e | e
        · exact .inl (by simp [e])
        · exact .inr e
      · exact hb.congr (fun _ _ e => e.elim) fun _ _ _ => rfl
      · intro q b _ _ hne _ hq
        refine hq.congr (fun j _ e => ?_) fun j hj _ => rfl
        simp only [Option.some.injEq] at e
        exact absurd (append_singleton_inj.1 e).1.symm hne
    · refine (H.level n L' h').congr (fun q hq => rfl) ?_
      intro q b _ hql _ hq
      refine hq.congr (fun j _ e => ?_) fun j hj _ => rfl
      simp only [Option.some.injEq] at e
      exact absurd (by rw [← hql, (append_singleton_inj.1 e).1]) hne

theorem toNat_ofNat64 {b : Nat} (h : b < 2 ^ 64 - 1) :
    (BitVec.ofNat 64 b).toNat = b ∧ BitVec.ofNat 64 b ≠ freeEnd := by
  have e : (BitVec.ofNat 64 b).toNat = b := by
    rw [BitVec.toNat_ofNat]; exact Nat.mod_eq_of_lt (by omega)
  refine ⟨e, fun h' => ?_⟩
  have : (BitVec.ofNat 64 b).toNat = freeEnd.toNat := by rw [h']
  rw [e] at this
  simp [freeEnd] at this
  omega

/-- Putting a childless block on the free list; its slot in the parent becomes a hole. -/
theorem LvRep.free (hN : 0 < N) (H : LvRep N D cap lv B none) {p : List Nat} {L : Level}
    (hne : p ≠ []) (hlive : B p ≠ 0) (hch : ∀ i, B (p ++ [i]) = 0)
    (hL : lv[p.length]? = some L) (hcap : cap p.length < 2 ^ 64) :
    ∃ L', L.removeEmpty (B p) = .ok L' ∧
      LvRep N D cap (lv.set p.length L') (upd B p 0) (some p) := by
  have hp := (H.valid p hlive).1
  have hk := H.level _ _ hL
  have hn0 : p.length ≠ 0 := fun e => hne (List.length_eq_zero_iff.1 e)
  obtain ⟨b, hb, hbI⟩ := H.block hp hL
  have hbe : b = Block.empty N := by
    apply BlockIs.eq_empty
    exact hbI.congr (fun _ _ e => by cases e) fun i _ _ => hch i
  have hlt := (List.getElem?_eq_some_iff.1 hb).1
  have hlt64 : B p < 2 ^ 64 - 1 := by have := hk.cap hn0; omega
  have hs : L.single = false := by rw [hk.single]; simpa using hn0
  have hm : setU b.mask 0 L.rootEmpty = .ok (freeBlock N L.rootEmpty).mask := by
    rw [hbe]
    have : 0 < (Block.empty N).mask.length := by simpa [Block.empty] using hN
    rw [setU_ok _ this]
    congr 1
    obtain ⟨k, rfl⟩ : ∃ k, N = k + 1 := ⟨N - 1, by omega⟩
    simp [Block.empty, zeroMask, freeBlock, List.replicate_succ]
  have hrem : L.removeEmpty (B p) = .ok ⟨L.single,
      L.blocks.set (B p) (freeBlock N L.rootEmpty), BitVec.ofNat 64 (B p)⟩ := by
    unfold Level.removeEmpty
    rw [hs]
    simp only [getU_some hb, bind_ok, hm, setU_ok _ hlt, Bool.false_eq_true, if_false, pure_eq_ok]
    have : b.idx = (freeBlock N L.rootEmpty).idx := by rw [hbe]; rfl
    rw [this]
  refine ⟨_, hrem, ?_⟩
  obtain ⟨hof, hoe⟩ := toNat_ofNat64 hlt64
  refine ⟨by simpa using H.len, ?_, ?_, ?_, ?_⟩
  · rw [upd_ne _ (fun e => hne e.symm)]; exact H.root
  · intro q hq
    by_cases e : q = p
    · rw [e, upd_same] at hq; exact absurd rfl hq
    · rw [upd_ne _ e] at hq; exact H.valid q hq
  · intro q j hq h
    by_cases e' : q ++ [j] = p
    · rw [e', upd_same]
    · rw [upd_ne _ e']
      by_cases e : q = p
      · subst e; exact hch j
      · rw [upd_ne _ e] at h
        exact H.absent q j hq h
  · intro n L' h
    rcases lv_set_get h with ⟨rfl, rfl⟩ | ⟨hnn, h'⟩
    · constructor
      · exact hk.single
      · intro h0; exact absurd h0 hn0
      · intro _
        simp only [getElem?_set_if hlt, if_neg (fun e => hlive (Eq.symm e) : ¬ 0 = B p)]
        exact hk.zero hn0
      · intro q hq hql hl
        have e : q ≠ p := by
          rintro rfl
          rcases hl with h0 | h0
          · exact hn0 h0
          · exact h0 (upd_same _ _ _)
        rw [upd_ne _ e] at hl ⊢
        have hl' : B q ≠ 0 := by rcases hl with h0 | h0; exact absurd h0 hn0; exact h0
        obtain ⟨b1, hb1, hI⟩ := hk.node q hq hql hl
        refine ⟨b1, ?_, hI.congr (fun _ _ e => by cases e) fun j hj hY => ?_⟩
        · simp only [getElem?_set_if hlt]
          rw [if_neg (fun e' => e (hk.inj q p hql rfl e' hl'))]
          exact hb1
        · rw [upd_ne]
          intro e'
          have : q.length + 1 = p.length := by rw [← e']; simp
          omega
      · intro q r hq hr he hz
        have e : q ≠ p := by rintro rfl; exact hz (upd_same _ _ _)
        have hzq : B q ≠ 0 := by rwa [upd_ne _ e] at hz
        have e2 : r ≠ p := by
          rintro rfl; rw [upd_same, upd_ne _ e] at he; exact hzq he
        rw [upd_ne _ e, upd_ne _ e2] at he
        exact hk.inj q r hq hr he hzq
      · obtain ⟨fl, h1, h2, h3, h4⟩ := hk.free
        have hpfl : B p ∉ fl := fun hf => (h3 _ hf).2 p rfl rfl
        refine ⟨B p :: fl, ⟨hof, hoe, L.rootEmpty, by simp [getElem?_set_if hlt], h1.congr ?_⟩,
          List.nodup_cons.2 ⟨hpfl, h2⟩, ?_, ?_⟩
        · intro f hf
          simp only [getElem?_set_if hlt]
          rw [if_neg (fun e : f = B p => hpfl (by rw [← e]; exact hf))]
        · intro f hf
          have hf' : f = B p ∨ f ∈ fl := by simpa using hf
          refine ⟨?_, fun q hq => ?_⟩
          · rcases hf' with rfl | h; exact hlive; exact (h3 f h).1
          · by_cases e : q = p
            · rw [e, upd_same]
              rcases hf' with rfl | h
              · exact fun e => hlive e.symm
              · exact fun e => (h3 f h).1 e.symm
            · rw [upd_ne _ e]
              rcases hf' with rfl | h
              · intro he
                exact e (hk.inj q p hq rfl he (by rw [he]; exact hlive))
              · exact (h3 f h).2 q hq
        · intro c hc0 hc1
          rcases h4 c hc0 (by simpa using hc1) with hcf | ⟨q, hq, hbq⟩
          · exact .inl (by simp [hcf])
          · by_cases e : q = p
            · subst e; exact .inl (by simp [← hbq])
            · exact .inr ⟨q, hq, by rw [upd_ne _ e]; exact hbq⟩
      · intro h0; simpa using hk.cap h0
    · refine (H.level n L' h').congr (fun q hq => upd_ne _ ?_) ?_
      · rintro rfl; exact hnn hq.symm
      · intro q b _ hql _ hq
        refine hq.congr (fun _ _ e => by cases e) fun j hj hY => ?_
        rw [upd_ne]
        intro e; exact hY (by rw [e])

end

end Hibit.Sparse
