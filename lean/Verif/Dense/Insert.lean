import Verif.Dense.Tree
/-!
# DenseTree: the descent of `get_or_insert_impl`
-/
namespace Hibit.Dense
open Hibit

/-- `slot` is the place that holds the pointer to the node at `p`. -/
def SlotAt (loc : List Nat → Option Nat) (F : List Nat → Nat → Option Cell) (s : Slot)
    (p : List Nat) : Prop :=
  match s with
  | .root => p = []
  | .cell b d => ∃ q j, p = q ++ [j] ∧ loc q = some b ∧ d = rank (F q) j

variable {D : Nat} {loc K : List Nat → Option Nat}

theorem read_slot {w : Walk} (H : TInv D w.heap w.root loc K) {p : List Nat} {a : Nat}
    (ha : loc p = some a) (hs : SlotAt loc (cellsOf D loc K) w.slot p) :
    w.read = .ok (.heap a) := by
  obtain ⟨h, root, slot⟩ := w
  cases slot with
  | root =>
    simp only [SlotAt] at hs
    subst hs
    obtain ⟨r, h1, h2⟩ := H.root
    rw [ha] at h1; cases h1
    simp only at h2
    simp [Walk.read, h2]
  | cell b d =>
    obtain ⟨q, j, rfl, hb, rfl⟩ := hs
    obtain ⟨hv, hl⟩ := H.valid _ _ ha
    simp only [List.length_append, List.length_singleton] at hl
    obtain ⟨n, h1, -, h3, -⟩ := H.rep.setCell hb (ValidPath.of_append hv).2
      (v := .ptr (.heap a)) (by rw [cellsOf_branch hl, ha]; rfl) .uninit
    simp only at h1
    simp only [Walk.read, h1, unwrapU, bind_ok, getU_some h3, Cell.asPtr]

/-- Writing the (possibly moved) node pointer back into its slot. -/
theorem write_slot {h : Heap} {root : Ptr} {slot : Slot} {F : List Nat → Nat → Option Cell}
    (H : HRep D h loc F) {p : List Nat} {a : Nat}
    (hv : ValidPath 64 p) (hpD : p.length < D)
    (hs : SlotAt loc F slot p) (hF : ∀ q j, p = q ++ [j] → F q j ≠ none) :
    ∃ w', (Walk.mk h root slot).write (.heap a) = .ok w' ∧ w'.slot = slot ∧
      w'.root = (if p = [] then .heap a else root) ∧
      HRep D w'.heap loc (fun r k => if r ++ [k] = p then some (.ptr (.heap a)) else F r k) := by
  cases slot with
  | root =>
    simp only [SlotAt] at hs
    subst hs
    refine ⟨_, rfl, rfl, by simp, ?_⟩
    simp only [List.append_eq_nil_iff, List.cons_ne_nil, and_false, if_false]
    exact H
  | cell b d =>
    obtain ⟨q, j, rfl, hb, rfl⟩ := hs
    obtain ⟨v, hFv⟩ : ∃ v, F q j = some v := by
      cases e : F q j with
      | none => exact absurd e (hF q j rfl)
      | some v => exact ⟨v, rfl⟩
    obtain ⟨n, h1, h2, h3, h4⟩ := H.setCell hb (ValidPath.of_append hv).2 hFv (.ptr (.heap a))
    have hkind : n.kind = .branch := by
      obtain ⟨n', -, -, h1', h3', -⟩ := H.deref hb
      rw [h1] at h1'; cases h1'
      rw [h3']; unfold kindOf; rw [if_pos (by simpa using hpD)]
    refine ⟨⟨h.put b { n with cells := n.cells.set (rank (F q) j) (.ptr (.heap a)) }, root,
      .cell b (rank (F q) j)⟩, ?_, rfl, by simp, ?_⟩
    · simp only [Walk.write, h1, unwrapU, bind_ok]
      rw [if_neg (by simp [hkind])]
      simp only [setU_ok _ h2, bind_ok, pure_eq_ok]
    · refine h4.congr ?_
      intro r _ _ k _
      simp only [append_singleton_inj]
      by_cases e : r = q
      · subst e
        rw [upd_same]
        by_cases e' : k = j
        · subst e'; simp
        · simp [upd_ne _ _ e', e']
      · simp [upd_ne _ _ e, e]

theorem append_ne_self (p : List Nat) (i : Nat) : p ++ [i] ≠ p := by
  intro e
  have := congrArg List.length e
  simp at this

/-- dense_tree.rs:130-152, one level. -/
theorem insertStep_spec {w : Walk} (H : TInv D w.heap w.root loc K) (hD : D ≤ 9)
    {P : List Nat} (hP : ValidPath 64 P) {N a : Nat} (hN : N + 2 ≤ D) (hPD : P.length = D)
    (ha : loc (P.take N) = some a)
    (hs : SlotAt loc (cellsOf D loc K) w.slot (P.take N)) :
    ∃ w' loc' b, insertStep D P w N = .ok (w', false) ∧ TInv D w'.heap w'.root loc' K ∧
      loc' (P.take (N + 1)) = some b ∧
      SlotAt loc' (cellsOf D loc' K) w'.slot (P.take (N + 1)) ∧
      (∀ r, r ≠ P.take (N + 1) → (loc' r).isSome = (loc r).isSome) ∧
      (∀ c, loc (P.take (N + 1)) = some c → w'.heap = w.heap ∧ loc' = loc) ∧
      (loc (P.take (N + 1)) = none → b = w.heap.next) := by
  have hlt : N < P.length := by omega
  have hget : P[N]? = some P[N] := List.getElem?_eq_getElem hlt
  have htake := take_succ_of_getElem? hget
  generalize hi : P[N] = i at *
  have hi64 : i < 64 := by rw [← hi]; exact hP _ (List.getElem_mem _)
  rw [htake]
  have hpv : ValidPath 64 (P.take N) := fun x hx => hP x (List.mem_of_mem_take hx)
  have hpl : (P.take N).length = N := by simp; omega
  generalize hp : P.take N = p at *
  obtain ⟨n, hd, hdm, hn, hk, hrep⟩ := H.rep.deref ha
  have hread := read_slot H ha hs
  have hcell : cellsOf D loc K p i = (loc (p ++ [i])).map (fun a => .ptr (.heap a)) :=
    cellsOf_branch (by omega) i
  have hkind : kindOf D p = .branch := by unfold kindOf; rw [if_pos (by omega)]
  have hc := hrep.contains hi64
  cases hb : loc (p ++ [i]) with
  | some b =>
    rw [hcell, hb] at hc
    simp only [Option.map_some, Option.isSome_some] at hc
    refine ⟨⟨w.heap, w.root, .cell a (rank (cellsOf D loc K p) i)⟩, loc, b, ?_, H, hb, ?_, ?_,
      fun _ _ => ⟨rfl, rfl⟩, fun e => by cases e⟩
    · unfold insertStep
      simp only [getP_some hget, bind_ok, hread, hd, hc, if_true, hdm,
        denseIndex_eq hrep.bits hi64, pure_eq_ok]
    · exact ⟨p, i, rfl, ha, rfl⟩
    · intro r _; rfl
  | none =>
    rw [hcell, hb] at hc
    simp only [Option.map_none, Option.isSome_none] at hc
    -- the new child
    obtain ⟨h1, e1, H1⟩ := H.rep.new hb
    have hnew : (if N = D - 2 then nodeNew w.heap .term defaultCap (.idx 0)
        else do
          let e ← emptyNode (N + 2) D
          nodeNew w.heap .branch defaultCap (.ptr e)) = .ok (h1, w.heap.next) := by
      rw [← e1]
      by_cases hND : N = D - 2
      · rw [if_pos hND]
        unfold kindOf sent
        simp only [List.length_append, List.length_singleton, hpl]
        rw [if_neg (by omega), if_neg (by omega)]
      · rw [if_neg hND]
        unfold kindOf sent emptyNode
        simp only [List.length_append, List.length_singleton, hpl]
        rw [if_pos (by omega), if_pos (by omega), if_pos (by omega)]
        rfl
    have hne : p ≠ p ++ [i] := fun e => append_ne_self p i e.symm
    have ha1 : upd loc (p ++ [i]) (some w.heap.next) p = some a := by rw [upd_ne _ _ hne]; exact ha
    have hF1 : upd (cellsOf D loc K) (p ++ [i]) (fun _ => none) p = cellsOf D loc K p :=
      upd_ne _ _ hne
    obtain ⟨h2, a', e2, H2⟩ := H1.insert ha1 hi64 (by rw [hF1, hcell, hb]; rfl)
      (.ptr (.heap w.heap.next))
    rw [hF1] at e2 H2
    rw [hkind] at e2
    -- name the new placement
    generalize hloc2 : upd (upd loc (p ++ [i]) (some w.heap.next)) p (some a') = loc2 at H2
    have l2p : loc2 p = some a' := by rw [← hloc2]; simp
    have l2c : loc2 (p ++ [i]) = some w.heap.next := by
      rw [← hloc2, upd_ne _ _ (append_ne_self p i)]; simp
    have l2o : ∀ r, r ≠ p → r ≠ p ++ [i] → loc2 r = loc r := by
      intro r g1 g2; rw [← hloc2, upd_ne _ _ g1, upd_ne _ _ g2]
    generalize hF2 : upd (upd (cellsOf D loc K) (p ++ [i]) fun _ => none) p
      (upd (cellsOf D loc K p) i (some (.ptr (.heap w.heap.next)))) = F2 at H2
    have f2p : F2 p = upd (cellsOf D loc K p) i (some (.ptr (.heap w.heap.next))) := by
      rw [← hF2]; simp
    have f2c : F2 (p ++ [i]) = fun _ => none := by
      rw [← hF2, upd_ne _ _ (append_ne_self p i)]; simp
    have f2o : ∀ r, r ≠ p → r ≠ p ++ [i] → F2 r = cellsOf D loc K r := by
      intro r g1 g2; rw [← hF2, upd_ne _ _ g1, upd_ne _ _ g2]
    have hq : ∀ q j, p = q ++ [j] → q ≠ p ∧ q ≠ p ++ [i] := by
      intro q j e
      constructor
      · intro e'; rw [e'] at e; exact append_ne_self _ _ e.symm
      · intro e'
        have := congrArg List.length e
        have := congrArg List.length e'
        simp at *; omega
    have hs2 : SlotAt loc2 F2 w.slot p := by
      revert hs
      cases w.slot with
      | root => exact id
      | cell b d =>
        rintro ⟨q, j, e, hb', rfl⟩
        obtain ⟨g1, g2⟩ := hq q j e
        exact ⟨q, j, e, by rw [l2o q g1 g2]; exact hb', by rw [f2o q g1 g2]⟩
    obtain ⟨w', e3, e4, e5, H3⟩ := write_slot (root := w.root) (a := a') H2 hpv (by omega) hs2 (by
      intro q j e
      obtain ⟨g1, g2⟩ := hq q j e
      rw [f2o q g1 g2, cellsOf_branch (by rw [e] at hpl; simp at hpl; omega), ← e, ha]
      simp)
    -- coherence
    have hcoh : ∀ r b, loc2 r = some b → ∀ k, k < 64 →
        (if r ++ [k] = p then some (.ptr (.heap a')) else F2 r k) = cellsOf D loc2 K r k := by
      intro r b hr k hk
      by_cases e : r ++ [k] = p
      · rw [if_pos e, cellsOf_branch (by rw [← e] at hpl; simp at hpl; omega), e, l2p]; rfl
      · rw [if_neg e]
        by_cases er : r = p
        · subst er
          rw [f2p, cellsOf_branch (by omega)]
          by_cases ek : k = i
          · subst ek; rw [upd_same, l2c]; rfl
          · rw [upd_ne _ _ ek, cellsOf_branch (by omega),
              l2o _ (append_ne_self _ _) (by rw [Ne, append_singleton_inj]; simp [ek])]
        · by_cases er' : r = p ++ [i]
          · subst er'
            rw [f2c]
            unfold cellsOf
            by_cases hb2 : (p ++ [i]).length + 1 < D
            · rw [if_pos hb2, l2o]
              · cases e' : loc (p ++ [i] ++ [k]) with
                | none => rfl
                | some x =>
                  obtain ⟨y, hy⟩ := H.closed _ _ _ e'
                  rw [hb] at hy; cases hy
              · intro e'; have := congrArg List.length e'; simp at this
              · exact append_ne_self _ _
            · rw [if_neg hb2]
              cases e' : K (p ++ [i] ++ [k]) with
              | none => rfl
              | some x =>
                obtain ⟨y, hy⟩ := H.klive _ _ _ e'
                rw [hb] at hy; cases hy
          · rw [f2o r er er']
            unfold cellsOf
            split
            · rw [l2o _ e (by rw [Ne, append_singleton_inj]; simp [er])]
            · rfl
    have H4 := H3.congr hcoh
    have hT : TInv D w'.heap w'.root loc2 K := by
      refine ⟨H4, ?_, ?_, ?_, H.kvalid, ?_⟩
      · rw [e5]
        by_cases e : p = []
        · subst e; exact ⟨a', l2p, by simp⟩
        · rw [if_neg e, l2o _ (Ne.symm e) (by simp)]
          exact H.root
      · intro r b hr
        by_cases er : r = p
        · subst er; exact ⟨hpv, by omega⟩
        · by_cases er' : r = p ++ [i]
          · subst er'; exact ⟨ValidPath.append hpv hi64, by simp; omega⟩
          · rw [l2o r er er'] at hr; exact H.valid r b hr
      · intro r k b hr
        by_cases er : r = p
        · subst er; exact ⟨a', l2p⟩
        · by_cases er' : r = p ++ [i]
          · subst er'; exact ⟨_, l2c⟩
          · rw [l2o r er er']
            by_cases ek : r ++ [k] = p
            · rw [← ek] at ha; exact H.closed _ _ _ ha
            · rw [l2o _ ek (by rw [Ne, append_singleton_inj]; simp [er])] at hr
              exact H.closed _ _ _ hr
      · intro r k d hr
        by_cases er : r = p
        · subst er; exact ⟨a', l2p⟩
        · by_cases er' : r = p ++ [i]
          · subst er'; exact ⟨_, l2c⟩
          · rw [l2o r er er']; exact H.klive _ _ _ hr
    refine ⟨{ w' with slot := .cell a' (rank (cellsOf D loc K p) i) }, loc2, w.heap.next, ?_, hT,
      l2c, ?_, ?_, fun _ e => (by cases e), fun _ => rfl⟩
    · unfold insertStep
      simp only [getP_some hget, bind_ok, hread, hd, hc]
      simp only [Bool.false_eq_true, if_false]
      by_cases hND : N = D - 2
      · rw [if_pos hND] at hnew ⊢
        simp only [hnew, bind_ok, e2, e3, pure_eq_ok]
      · rw [if_neg hND] at hnew ⊢
        cases he : emptyNode (N + 2) D with
        | error x => rw [he] at hnew; cases hnew
        | ok x =>
          rw [he] at hnew
          simp only [bind_ok] at hnew ⊢
          simp only [hnew, bind_ok, e2, e3, pure_eq_ok]
    · refine ⟨p, i, rfl, l2p, ?_⟩
      rw [← rank_upd (cellsOf D loc K p) i (some (.ptr (.heap w.heap.next))), ← f2p]
      refine rank_congr hi64 ?_
      intro k hk
      have := hcoh p a' l2p k hk
      rwa [if_neg (append_ne_self p k)] at this
    · intro r hr
      by_cases er : r = p
      · subst er; rw [l2p, ha]; rfl
      · rw [l2o r er hr]

/-- The whole descent. -/
theorem insertWalk_spec {α : Type} {t : DT α} (H : TInv D t.heap t.root loc K) (hD : D ≤ 9)
    (hD1 : 1 ≤ D) {P : List Nat} (hP : ValidPath 64 P) (hPD : P.length = D) :
    ∃ w loc' b, insertWalk D t P = .ok w ∧ TInv D w.heap w.root loc' K ∧
      loc' (P.take (D - 1)) = some b ∧
      SlotAt loc' (cellsOf D loc' K) w.slot (P.take (D - 1)) ∧
      ∀ r, (∀ k, 1 ≤ k → k ≤ D - 1 → r ≠ P.take k) → (loc' r).isSome = (loc r).isSome := by
  have key : ∀ (n m : Nat) (w : Walk) (loc : List Nat → Option Nat) (a : Nat),
      m + n = D - 1 → TInv D w.heap w.root loc K → loc (P.take m) = some a →
      SlotAt loc (cellsOf D loc K) w.slot (P.take m) →
      ∃ w' loc' b, visitList (insertStep D P) ((List.range n).map (· + m)) w = .ok (w', false) ∧
        TInv D w'.heap w'.root loc' K ∧
        loc' (P.take (D - 1)) = some b ∧
        SlotAt loc' (cellsOf D loc' K) w'.slot (P.take (D - 1)) ∧
        ∀ r, (∀ k, m + 1 ≤ k → k ≤ D - 1 → r ≠ P.take k) → (loc' r).isSome = (loc r).isSome := by
    intro n
    induction n with
    | zero =>
      intro m w loc a hm H ha hs
      have : m = D - 1 := by omega
      subst this
      exact ⟨w, loc, a, rfl, H, ha, hs, fun r _ => rfl⟩
    | succ n ih =>
      intro m w loc a hm H ha hs
      obtain ⟨w1, loc1, b1, e1, H1, hb1, hs1, hl1, -, -⟩ :=
        insertStep_spec H hD hP (by omega) hPD ha hs
      obtain ⟨w2, loc2, b2, e2, H2, hb2, hs2, hl2⟩ := ih (m + 1) w1 loc1 b1 (by omega) H1 hb1 hs1
      refine ⟨w2, loc2, b2, ?_, H2, hb2, hs2, ?_⟩
      · rw [List.range_succ_eq_map, List.map_cons, List.map_map]
        simp only [visitList, Nat.zero_add, e1, bind_ok, Bool.false_eq_true, if_false]
        have : (List.range n).map ((· + m) ∘ Nat.succ) = (List.range n).map (· + (m + 1)) := by
          apply List.map_congr_left; intro x _; simp; omega
        rw [this, e2]
      · intro r hr
        rw [hl2 r (fun k g1 g2 => hr k (by omega) g2), hl1 r (hr (m + 1) (by omega) (by omega))]
  obtain ⟨a, hr, hroot⟩ := H.root
  obtain ⟨w', loc', b, e1, H1, hb, hs, hl⟩ := key (D - 1) 0 ⟨t.heap, t.root, .root⟩ loc a
    (by omega) H (by simpa using hr) (by simp [SlotAt])
  refine ⟨w', loc', b, ?_, H1, hb, hs, ?_⟩
  · unfold insertWalk
    rw [constLoop_eq _ _ _ _ (by omega) (by omega)]
    have : rangeFromTo 0 (D - 1) = (List.range (D - 1)).map (· + 0) := rfl
    rw [this, e1]; rfl
  · intro r hr; exact hl r (fun k g1 g2 => hr k (by omega) g2)

end Hibit.Dense
