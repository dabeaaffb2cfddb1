import Verif.Dense.Materialize
import Verif.Dense.Refine
import Verif.Content
import Verif.MapSpec
/-!
# Materialize: partial forests and the building blocks
-/
namespace Hibit.Dense
open Hibit

/-! ## Traversals -/

theorem traverseM_eq {σ : Type} (body : σ → Nat → R σ) (st : σ) (m : Mask) :
    traverseM body st m = m.ones.foldlM body st := by
  unfold traverseM
  rw [traverseBits_eq]
  simp only [bind_ok]
  generalize m.ones = l
  induction l generalizing st with
  | nil => rfl
  | cons a l ih =>
    rw [List.foldlM_cons]
    simp only [feed, bind_ok]
    obtain ⟨st', h⟩ | ⟨e, h⟩ : (∃ st', body st a = .ok st') ∨ ∃ e, body st a = .error e := by
      cases body st a with
      | ok x => exact .inl ⟨x, rfl⟩
      | error e => exact .inr ⟨e, rfl⟩
    · simp only [h, Bool.false_eq_true, if_false, bind_ok]
      exact ih st'
    · simp [h]

theorem foldlM_filter {σ : Type} (body : σ → Nat → R σ) (p : Nat → Bool) (l : List Nat) (st : σ) :
    (l.filter p).foldlM body st = l.foldlM (fun st i => if p i then body st i else .ok st) st := by
  induction l generalizing st with
  | nil => rfl
  | cons a l ih =>
    rw [List.foldlM_cons]
    cases h : p a with
    | true =>
      rw [List.filter_cons_of_pos h, List.foldlM_cons]
      simp only [if_true]
      cases body st a with
      | ok s => simp only [bind_ok]; exact ih s
      | error e => rfl
    | false =>
      rw [List.filter_cons_of_neg (by simp [h])]
      simp only [Bool.false_eq_true, if_false, bind_ok]
      exact ih st

/-- Traversal of a one-word mask, as a loop over all 64 positions. -/
theorem traverse_word {σ : Type} {body : σ → Nat → R σ} {st : σ} {w : Word}
    (P : Nat → σ → Prop) (h0 : P 0 st)
    (hset : ∀ c st, c < 64 → w.getLsbD c = true → P c st → ∃ st', body st c = .ok st' ∧ P (c + 1) st')
    (hclr : ∀ c st, c < 64 → w.getLsbD c = false → P c st → P (c + 1) st) :
    ∃ st', traverseM body st [w] = .ok st' ∧ P 64 st' := by
  rw [traverseM_eq]
  have e : Mask.ones [w] = (List.range 64).filter (fun i => w.getLsbD i) := by
    have := ones_cons w []
    rw [this]
    simp [Mask.ones, wones]
  rw [e, foldlM_filter]
  have : ∀ n, n ≤ 64 → ∃ st', (List.range n).foldlM
      (fun st i => if w.getLsbD i then body st i else .ok st) st = .ok st' ∧ P n st' := by
    intro n
    induction n with
    | zero => intro _; exact ⟨st, rfl, h0⟩
    | succ n ih =>
      intro hn
      obtain ⟨st1, e1, h1⟩ := ih (by omega)
      rw [List.range_succ, List.foldlM_append, e1]
      simp only [bind_ok, List.foldlM_cons, List.foldlM_nil]
      cases hb : w.getLsbD n with
      | true =>
        obtain ⟨st2, e2, h2⟩ := hset n st1 (by omega) hb h1
        exact ⟨st2, by simp [e2], h2⟩
      | false => exact ⟨st1, by simp, hclr n st1 (by omega) hb h1⟩
  exact this 64 (Nat.le_refl _)

/-! ## Listings of a map -/

section
variable {α : Type} {M : Nat → Option α}

theorem valuesOf_succ (e : Nat) (M : Nat → Option α) :
    valuesOf (e + 1) M = valuesOf e M ++ (M e).toList := by
  unfold valuesOf
  rw [List.range_succ, List.filterMap_append]
  cases h : M e <;> simp [h]

theorem keysOf_succ (e : Nat) (M : Nat → Option α) :
    keysOf (e + 1) M = keysOf e M ++ (if (M e).isSome then [e] else []) := by
  unfold keysOf
  rw [List.range_succ, List.filter_append]
  cases h : M e <;> simp [h]

theorem card_eq_length (e : Nat) (M : Nat → Option α) : (valuesOf e M).length = card e M := by
  unfold card keysOf valuesOf
  rw [List.length_filterMap_eq_countP, List.countP_eq_length_filter]

theorem card_succ (e : Nat) (M : Nat → Option α) :
    card (e + 1) M = card e M + (if (M e).isSome then 1 else 0) := by
  unfold card
  rw [keysOf_succ, List.length_append]
  split <;> rfl

theorem card_mono {e e' : Nat} (h : e ≤ e') : card e M ≤ card e' M := by
  induction h with
  | refl => exact Nat.le_refl _
  | step _ ih => rw [card_succ]; omega

theorem card_lt {e e' : Nat} (h : e < e') (hs : (M e).isSome) : card e M < card e' M := by
  have := card_mono (M := M) (show e + 1 ≤ e' by omega)
  rw [card_succ, if_pos hs] at this
  omega

theorem gap {e : Nat} : ∀ (n : Nat), (∀ r, r < n → M (e + r) = none) →
    valuesOf (e + n) M = valuesOf e M ∧ keysOf (e + n) M = keysOf e M := by
  intro n
  induction n with
  | zero => intro _; exact ⟨rfl, rfl⟩
  | succ n ih =>
    intro h
    obtain ⟨h1, h2⟩ := ih (fun r hr => h r (by omega))
    have := h n (by omega)
    rw [← Nat.add_assoc, valuesOf_succ, keysOf_succ, this, h1, h2]
    simp

theorem keysOf_getElem? {e k : Nat} (hk : k < e) (hs : (M k).isSome) :
    (keysOf e M)[card k M]? = some k := by
  have : ∀ n, (keysOf (k + 1 + n) M)[card k M]? = some k := by
    intro n
    induction n with
    | zero =>
      rw [Nat.add_zero, keysOf_succ, if_pos hs]
      rw [List.getElem?_append_right (by unfold card; omega)]
      simp [card]
    | succ n ih =>
      rw [← Nat.add_assoc, keysOf_succ]
      rw [List.getElem?_append_left]
      · exact ih
      · obtain ⟨hn, _⟩ := List.getElem?_eq_some_iff.1 ih; exact hn
  have := this (e - (k + 1))
  rwa [show k + 1 + (e - (k + 1)) = e by omega] at this

theorem valuesOf_getElem? {e k : Nat} (hk : k < e) (hs : (M k).isSome) :
    (valuesOf e M)[card k M]? = M k := by
  obtain ⟨v, hv⟩ := Option.isSome_iff_exists.1 hs
  have : ∀ n, (valuesOf (k + 1 + n) M)[card k M]? = some v := by
    intro n
    induction n with
    | zero =>
      rw [Nat.add_zero, valuesOf_succ, hv]
      rw [List.getElem?_append_right (by rw [card_eq_length]; omega)]
      simp [card_eq_length]
    | succ n ih =>
      rw [← Nat.add_assoc, valuesOf_succ]
      rw [List.getElem?_append_left]
      · exact ih
      · obtain ⟨hn, _⟩ := List.getElem?_eq_some_iff.1 ih; exact hn
  have := this (e - (k + 1))
  rw [show k + 1 + (e - (k + 1)) = e by omega] at this
  rw [this, hv]

/-- Every position of the key listing is the rank of a stored key. -/
theorem rank_surj : ∀ (e d : Nat), d < card e M → ∃ k, k < e ∧ (M k).isSome ∧ card k M = d := by
  intro e
  induction e with
  | zero => intro d h; simp [card, keysOf] at h
  | succ e ih =>
    intro d h
    rw [card_succ] at h
    by_cases hd : d < card e M
    · obtain ⟨k, h1, h2, h3⟩ := ih d hd
      exact ⟨k, by omega, h2, h3⟩
    · by_cases hs : (M e).isSome
      · rw [if_pos hs] at h
        exact ⟨e, by omega, hs, by omega⟩
      · rw [if_neg hs] at h; omega

open Classical in
/-- The data index of the element at full path `P`: one more than the number of smaller keys. -/
noncomputable def KM (D : Nat) (M : Nat → Option α) (P : List Nat) : Option Nat :=
  if ValidPath 64 P ∧ P.length = D then (M (unpath 64 P)).map (fun _ => card (unpath 64 P) M + 1)
  else none

theorem KM_eq {D : Nat} {P : List Nat} (h : ValidPath 64 P) (hl : P.length = D) :
    KM D M P = (M (unpath 64 P)).map (fun _ => card (unpath 64 P) M + 1) := by
  unfold KM; rw [if_pos ⟨h, hl⟩]

theorem KM_some {D : Nat} {P : List Nat} {d : Nat} (h : KM D M P = some d) :
    ValidPath 64 P ∧ P.length = D ∧ (M (unpath 64 P)).isSome ∧ d = card (unpath 64 P) M + 1 := by
  unfold KM at h
  split at h
  · rename_i hv
    refine ⟨hv.1, hv.2, ?_⟩
    cases hM : M (unpath 64 P) with
    | none => rw [hM] at h; cases h
    | some v =>
      rw [hM] at h
      simp only [Option.map_some, Option.some.injEq] at h
      exact ⟨rfl, h.symm⟩
  · cases h

/-- The vectors built from the keys below `e` satisfy the data invariant at the end. -/
theorem DInv.listing {D : Nat} (hcard : card (64 ^ D) M < 2 ^ 32) :
    DInv (KM D M) (none :: (valuesOf (64 ^ D) M).map some)
      ((usizeMod - 1) :: keysOf (64 ^ D) M) where
  len := by simp [card_eq_length]; rfl
  bound := by simp [card_eq_length]; omega
  key0 := rfl
  data0 := rfl
  keyOf P d h := by
    obtain ⟨h1, h2, h3, rfl⟩ := KM_some h
    refine ⟨by omega, ?_⟩
    rw [List.getElem?_cons_succ]
    exact keysOf_getElem? (by rw [← h2]; exact unpath_lt h1) h3
  surj d h1 h2 := by
    simp only [List.length_cons] at h2
    obtain ⟨k, g1, g2, g3⟩ := rank_surj (M := M) (64 ^ D) (d - 1) (by unfold card; omega)
    refine ⟨path 64 D k, ?_⟩
    rw [KM_eq (path_lt D g1) (path_length 64 D k), unpath_path 64 D k g1]
    obtain ⟨v, hv⟩ := Option.isSome_iff_exists.1 g2
    rw [hv]
    simp; omega
  init d h1 h2 := by
    cases d with
    | zero => omega
    | succ d =>
      rw [List.getElem?_cons_succ, List.getElem?_map]
      simp only [List.length_cons, List.length_map] at h2
      exact ⟨_, by rw [List.getElem?_eq_getElem (by omega)]; rfl⟩

theorem den_listing {D : Nat} (hout : ∀ k, 64 ^ D ≤ k → M k = none) (k : Nat) :
    M k = if k < 64 ^ D then (KM D M (path 64 D k)).bind
      fun d => ((none :: (valuesOf (64 ^ D) M).map some)[d]?).join else none := by
  by_cases hk : k < 64 ^ D
  · rw [if_pos hk, KM_eq (path_lt D hk) (path_length 64 D k), unpath_path 64 D k hk]
    cases hM : M k with
    | none => rfl
    | some v =>
      simp only [Option.map_some, Option.bind_some, List.getElem?_cons_succ, List.getElem?_map]
      rw [valuesOf_getElem? hk (by rw [hM]; rfl), hM]
      rfl
  · rw [if_neg hk]; exact hout k (by omega)

end

/-! ## Partial forests -/

/-- The blocks from address `lo` on are the nodes placed by `loc`. `g` repairs the node header
before it is compared (identity, or the length fix of `from_parts` nodes). -/
structure Part (g : Node → Node) (D : Nat) (K : List Nat → Option Nat) (lo : Nat) (h : Heap)
    (loc : List Nat → Option Nat) : Prop where
  lo_le : lo ≤ h.next
  fresh : ∀ a, h.next ≤ a → h.node a = none
  node : ∀ q a, loc q = some a → lo ≤ a ∧
    ∃ n, h.node a = some n ∧ n.kind = kindOf D q ∧ NodeRep (g n) (cellsOf D loc K q) (sent D q)
  inj : ∀ p q a, loc p = some a → loc q = some a → p = q
  cover : ∀ a n, lo ≤ a → h.node a = some n → ∃ p, loc p = some a

section
variable {g : Node → Node} {D : Nat} {K : List Nat → Option Nat} {lo : Nat} {h : Heap}
  {loc : List Nat → Option Nat}

theorem Part.empty (hf : ∀ a, h.next ≤ a → h.node a = none) :
    Part g D K h.next h (fun _ => none) where
  lo_le := Nat.le_refl _
  fresh := hf
  node _ _ e := by cases e
  inj _ _ _ e := by cases e
  cover a n ha e := by rw [hf a ha] at e; cases e

theorem Part.congr (H : Part g D K lo h loc) {h' : Heap} (hn : h'.next = h.next)
    (he : ∀ a, lo ≤ a → h'.node a = h.node a) : Part g D K lo h' loc where
  lo_le := by rw [hn]; exact H.lo_le
  fresh a ha := by
    have := H.lo_le
    rw [he a (by omega)]; exact H.fresh a (by omega)
  node q a hq := by
    obtain ⟨h1, n, h2, h3⟩ := H.node q a hq
    exact ⟨h1, n, by rw [he a h1]; exact h2, h3⟩
  inj := H.inj
  cover a n ha e := by rw [he a ha] at e; exact H.cover a n ha e

theorem Part.lt_next (H : Part g D K lo h loc) {q : List Nat} {a : Nat} (hq : loc q = some a) :
    a < h.next := by
  obtain ⟨h1, n, h2, -⟩ := H.node q a hq
  rcases Nat.lt_or_ge a h.next with hl | hl
  · exact hl
  · rw [H.fresh a hl] at h2; cases h2

/-- Placement extended by the subtree at `r`. -/
def joinLoc (r : List Nat) (loc1 loc2 : List Nat → Option Nat) : List Nat → Option Nat :=
  fun q => if r <+: q then loc2 q else loc1 q

theorem prefix_append_single {p q : List Nat} {i : Nat} (h : p <+: q ++ [i]) :
    p <+: q ∨ p = q ++ [i] := by
  rcases List.prefix_concat_iff.1 h with e | e
  · exact .inr e
  · exact .inl e

/-- Adding the forest of a child subtree built on top of the heap. -/
theorem Part.join {loc1 loc2 : List Nat → Option Nat} {h' : Heap} {p : List Nat} {c : Nat}
    (H1 : Part g D K lo h loc1) (H2 : Part g D K h.next h' loc2)
    (hfr : ∀ a, a < h.next → h'.node a = h.node a)
    (hs1 : ∀ q a, loc1 q = some a → p <+: q ∧ q ≠ p ∧ ¬ (p ++ [c]) <+: q)
    (hs2 : ∀ q a, loc2 q = some a → (p ++ [c]) <+: q) :
    Part g D K lo h' (joinLoc (p ++ [c]) loc1 loc2) where
  lo_le := Nat.le_trans H1.lo_le H2.lo_le
  fresh := H2.fresh
  node q a hq := by
    unfold joinLoc at hq
    split at hq
    · rename_i hp
      obtain ⟨g1, n, g2, g3, g4⟩ := H2.node q a hq
      refine ⟨Nat.le_trans H1.lo_le g1, n, g2, g3, g4.congr ?_⟩
      intro i _
      unfold cellsOf joinLoc
      split
      · rw [if_pos (hp.trans (List.prefix_append q [i]))]
      · rfl
    · rename_i hp
      obtain ⟨g1, n, g2, g3, g4⟩ := H1.node q a hq
      obtain ⟨s1, s2, s3⟩ := hs1 q a hq
      refine ⟨g1, n, by rw [hfr a (H1.lt_next hq)]; exact g2, g3, g4.congr ?_⟩
      intro i _
      unfold cellsOf joinLoc
      split
      · rw [if_neg]
        intro hx
        rcases prefix_append_single hx with e | e
        · exact s3 e
        · rw [List.append_eq_append_iff] at e
          rcases e with ⟨x, e1, e2⟩ | ⟨x, e1, e2⟩
          · cases x with
            | nil => simp at e1; exact s2 e1
            | cons y x => simp at e2
          · cases x with
            | nil => simp at e1; exact s2 e1.symm
            | cons y x => simp at e2
      · rfl
  inj q r a hq hr := by
    unfold joinLoc at hq hr
    split at hq
    · split at hr
      · exact H2.inj q r a hq hr
      · have := (H2.node q a hq).1
        have := H1.lt_next hr
        omega
    · split at hr
      · have := (H2.node r a hr).1
        have := H1.lt_next hq
        omega
      · exact H1.inj q r a hq hr
  cover a n ha e := by
    by_cases hlt : a < h.next
    · rw [hfr a hlt] at e
      obtain ⟨q, hq⟩ := H1.cover a n ha e
      refine ⟨q, ?_⟩
      unfold joinLoc
      rw [if_neg (hs1 q a hq).2.2]; exact hq
    · obtain ⟨q, hq⟩ := H2.cover a n (by omega) e
      refine ⟨q, ?_⟩
      unfold joinLoc
      rw [if_pos (hs2 q a hq)]; exact hq

/-- Completing the node below the forest of its subtrees. -/
theorem Part.close {a0 : Nat} {p : List Nat} {n : Node} (H : Part g D K (a0 + 1) h loc)
    (hs : ∀ q a, loc q = some a → p <+: q ∧ q ≠ p)
    (hn : h.node a0 = some n) (hk : n.kind = kindOf D p)
    (hr : NodeRep (g n) (cellsOf D loc K p) (sent D p)) :
    Part g D K a0 h (upd loc p (some a0)) where
  lo_le := Nat.le_trans (Nat.le_succ _) H.lo_le
  fresh := H.fresh
  node q a hq := by
    have hcells : ∀ q, p <+: q → ∀ i, cellsOf D loc K q i = cellsOf D (upd loc p (some a0)) K q i := by
      intro q hpq i
      unfold cellsOf
      rw [upd_ne]
      intro e
      have := hpq.length_le
      rw [← e] at this
      simp at this
      omega
    by_cases e : q = p
    · subst e
      simp at hq; subst hq
      exact ⟨Nat.le_refl _, n, hn, hk, hr.congr (fun i _ => hcells q (List.prefix_refl q) i)⟩
    · rw [upd_ne _ _ e] at hq
      obtain ⟨g1, m, g2, g3, g4⟩ := H.node q a hq
      exact ⟨by omega, m, g2, g3, g4.congr (fun i _ => hcells q (hs q a hq).1 i)⟩
  inj q r a hq hr' := by
    by_cases e : q = p
    · subst e
      simp at hq; subst hq
      by_cases e' : r = q
      · exact e'.symm
      · rw [upd_ne _ _ e'] at hr'
        have := (H.node r _ hr').1; omega
    · rw [upd_ne _ _ e] at hq
      by_cases e' : r = p
      · subst e'
        simp at hr'; subst hr'
        have := (H.node q _ hq).1; omega
      · rw [upd_ne _ _ e'] at hr'
        exact H.inj q r a hq hr'
  cover a m ha e := by
    by_cases ea : a = a0
    · subst ea; exact ⟨p, by simp⟩
    · obtain ⟨q, hq⟩ := H.cover a m (by omega) e
      refine ⟨q, ?_⟩
      rw [upd_ne]
      · exact hq
      · intro e'; exact (hs q a hq).2 e'

end

/-! ## Nodes under construction -/

/-- A node under construction with the children `l` pushed so far. -/
def openNode (k : Kind) (mask : Word) (cap : Nat) (l : List Cell) : Node :=
  ⟨k, mask, cap, l.length, l ++ List.replicate (cap - l.length) .uninit⟩

theorem rawNew_eq (h : Heap) (k : Kind) (cap : Nat) (mask : Word) :
    rawNew h k cap mask = h.alloc (openNode k mask cap []) := by
  simp [rawNew, openNode]

theorem set_append_replicate (l : List Cell) (v : Cell) (m : Nat) (hm : 0 < m) :
    (l ++ List.replicate m Cell.uninit).set l.length v =
      (l ++ [v]) ++ List.replicate (m - 1) Cell.uninit := by
  cases m with
  | zero => omega
  | succ m => simp [List.replicate_succ]

theorem rawPush_open {h : Heap} {k : Kind} {a : Nat} {mask : Word} {cap : Nat} {l : List Cell}
    (hn : h.node a = some (openNode k mask cap l)) (hl : l.length < cap) (hc : cap ≤ 128) (v : Cell) :
    rawPush h k a v = .ok (h.put a (openNode k mask cap (l ++ [v]))) := by
  unfold rawPush
  rw [hn]
  simp only [unwrapU, bind_ok]
  have hk : (openNode k mask cap l).kind = k := rfl
  have hlen : (openNode k mask cap l).len = l.length := rfl
  have hcells : (openNode k mask cap l).cells = l ++ List.replicate (cap - l.length) .uninit := rfl
  rw [if_neg (by simp [hk]), hlen, hcells]
  rw [setU_ok v (by simp; omega)]
  simp only [bind_ok]
  rw [if_pos (by omega), set_append_replicate l v _ (by omega)]
  simp only [pure_eq_ok]
  congr 1
  simp [openNode, Nat.sub_sub]

/-- A finished node. -/
def doneNode (k : Kind) (mask : Word) (cap : Nat) (l : List Cell) (s : Cell) : Node :=
  ⟨k, mask, cap, l.length + 1, l ++ [s]⟩

theorem rawFinalize_open {h : Heap} {k : Kind} {a : Nat} {mask : Word} {cap : Nat} {l : List Cell}
    (hn : h.node a = some (openNode k mask cap l)) (hl : l.length + 1 = cap) (hc : cap ≤ 128) (s : Cell) :
    rawFinalize h k a s = .ok (h.put a (doneNode k mask cap l s)) := by
  unfold rawFinalize
  rw [hn]
  simp only [unwrapU, bind_ok]
  have hk : (openNode k mask cap l).kind = k := rfl
  have hlen : (openNode k mask cap l).len = l.length := rfl
  have hcap : (openNode k mask cap l).cap = cap := rfl
  have hcells : (openNode k mask cap l).cells = l ++ List.replicate (cap - l.length) .uninit := rfl
  rw [if_neg (by simp [hk]), hlen, hcells]
  rw [setU_ok s (by simp; omega)]
  simp only [bind_ok]
  rw [if_pos (by omega), set_append_replicate l s _ (by omega)]
  rw [if_pos (by rw [hcap]; omega)]
  show Except.ok _ = Except.ok _
  congr 1
  have : cap - l.length - 1 = 0 := by omega
  simp [openNode, doneNode, this]

theorem filterMap_length_bits {w : Word} {f : Nat → Option Cell}
    (hf : ∀ i, i < 64 → w.getLsbD i = (f i).isSome) :
    ((List.range 64).filterMap f).length = popcount w := by
  rw [popcount, List.length_filterMap_eq_countP]
  apply List.countP_congr
  intro i hi
  simp only [List.mem_range] at hi
  rw [hf i hi]

theorem filterMap_take_le (f : Nat → Option Cell) {c : Nat} (hc : c ≤ 64) :
    ((List.range c).filterMap f).length ≤ ((List.range 64).filterMap f).length := by
  have : List.range 64 = List.range c ++ (List.range (64 - c)).map (c + ·) := by
    rw [← List.range_add]; congr 1; omega
  rw [this, List.filterMap_append, List.length_append]
  omega

theorem filterMap_take_lt {f : Nat → Option Cell} {c : Nat} (hc : c < 64) (hs : (f c).isSome) :
    ((List.range c).filterMap f).length < ((List.range 64).filterMap f).length := by
  have := filterMap_take_le f (show c + 1 ≤ 64 by omega)
  rw [List.range_succ, List.filterMap_append, List.length_append] at this
  obtain ⟨v, hv⟩ := Option.isSome_iff_exists.1 hs
  simp [hv] at this
  omega

theorem popcount_le (w : Word) : popcount w ≤ 64 := by
  rw [popcount_eq]; exact wones_length_le w

theorem capOf_eq (w : Word) : capOf w = .ok (popcount w + 1) := by
  have := popcount_le w
  unfold capOf
  simp only
  rw [Nat.mod_eq_of_lt (by omega), if_pos (by omega)]

theorem doneNode_rep {k : Kind} {w : Word} {f : Nat → Option Cell} {s : Cell}
    (hf : ∀ i, i < 64 → w.getLsbD i = (f i).isSome) :
    NodeRep (doneNode k w (popcount w + 1) ((List.range 64).filterMap f) s) f s where
  bits := hf
  take := by simp only [doneNode]; rw [List.take_of_length_le (by simp)]
  len_eq := rfl
  le := by simp [doneNode, filterMap_length_bits hf]
  cap_eq := by simp [doneNode, filterMap_length_bits hf]
  cap_le := by have := popcount_le w; simp [doneNode]; omega

end Hibit.Dense
