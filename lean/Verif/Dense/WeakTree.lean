import Verif.Dense.Weak
import Verif.Dense.InPlace
/-!
# DenseTree with damaged branch nodes: walks and insertion
-/
namespace Hibit.Dense.Weak
open Hibit Hibit.Dense

/-- Shape of the node forest, relative to the actual children `F`. -/
structure TI (D : Nat) (h : Heap) (root : Ptr) (loc K : List Nat → Option Nat)
    (F : List Nat → Nat → Option Cell) : Prop where
  rep : HRep D h loc F
  root : ∃ a, loc [] = some a ∧ root = .heap a
  valid : ∀ p a, loc p = some a → ValidPath 64 p ∧ p.length < D
  closed : ∀ p i a, loc (p ++ [i]) = some a → ∃ b, loc p = some b
  kvalid : ∀ P d, K P = some d → ValidPath 64 P ∧ P.length = D
  klive : ∀ p i d, K (p ++ [i]) = some d → ∃ b, loc p = some b

/-- The tree invariant: cells hold what they should. -/
abbrev TInv (D : Nat) (h : Heap) (root : Ptr) (loc K : List Nat → Option Nat) : Prop :=
  TI D h root loc K (cellsOf D loc K)

theorem TI.congr {D : Nat} {h : Heap} {root : Ptr} {loc K : List Nat → Option Nat}
    {F G : List Nat → Nat → Option Cell} (H : TI D h root loc K F)
    (hfg : ∀ p a, loc p = some a → ∀ i, i < 64 → F p i = G p i) : TI D h root loc K G :=
  { H with rep := H.rep.congr hfg }

variable {D : Nat} {h : Heap} {root : Ptr} {loc K : List Nat → Option Nat}

theorem TInv.child (H : TInv D h root loc K) {p : List Nat} {i a b : Nat}
    (ha : loc p = some a) (hb : loc (p ++ [i]) = some b) :
    getChild h (.heap a) i = .ok (.ptr (.heap b)) := by
  obtain ⟨hv, hl⟩ := H.valid _ _ hb
  simp only [List.length_append, List.length_singleton] at hl
  exact H.rep.getChild ha (ValidPath.of_append hv).2 (by rw [cellsOf_branch hl, hb]; rfl)

theorem TInv.idx (H : TInv D h root loc K) {p : List Nat} {i a d : Nat}
    (ha : loc p = some a) (hd : K (p ++ [i]) = some d) :
    getChild h (.heap a) i = .ok (.idx d) := by
  obtain ⟨hv, hl⟩ := H.kvalid _ _ hd
  simp only [List.length_append, List.length_singleton] at hl
  exact H.rep.getChild ha (ValidPath.of_append hv).2 (by rw [cellsOf_term hl, hd]; rfl)

/-- In a live terminal node every position can be read. -/
theorem TInv.idx_any (H : TInv D h root loc K) {p : List Nat} {i a : Nat}
    (ha : loc p = some a) (hl : p.length + 1 = D) (hi : i < 64) :
    ∃ d, getChild h (.heap a) i = .ok (.idx d) ∧ (d = 0 ∨ ∃ P, K P = some d) := by
  obtain ⟨c, g1, g2⟩ := H.rep.getChild_term ha (by omega) hi
  rcases g2 with rfl | ⟨j, hj, g2⟩
  · unfold sent at g1
    rw [if_neg (by omega)] at g1
    exact ⟨_, g1, .inl rfl⟩
  · rw [cellsOf_term hl] at g2
    cases hb : K (p ++ [j]) with
    | none => rw [hb] at g2; simp at g2
    | some b =>
      rw [hb] at g2
      simp only [Option.map_some, Option.some.injEq] at g2
      subst g2
      exact ⟨_, g1, .inr ⟨_, hb⟩⟩

theorem TI.take_live {F} (H : TI D h root loc K F) : ∀ (n : Nat) {p : List Nat} {a : Nat},
    p.length = n → loc p = some a → ∀ k, ∃ b, loc (p.take k) = some b := by
  intro n
  induction n with
  | zero =>
    intro p a hp ha k
    obtain rfl := List.length_eq_zero_iff.1 hp
    exact ⟨a, by simpa using ha⟩
  | succ n ih =>
    intro p a hp ha k
    rcases eq_nil_or_append p with rfl | ⟨q, i, rfl⟩
    · simp at hp
    · by_cases hk : k ≤ q.length
      · obtain ⟨b, hb⟩ := H.closed _ _ _ ha
        rw [List.take_append_of_le_length hk]
        exact ih (by simpa using hp) hb k
      · rw [List.take_of_length_le (by simp; omega)]
        exact ⟨a, ha⟩

/-- The loop over the branch levels, on the path to a live node. -/
theorem TInv.branch_live (H : TInv D h root loc K) {P : List Nat} :
    ∀ (m l : Nat) (a : Nat), l + m ≤ P.length → loc (P.take l) = some a →
      (∀ k, k ≤ l + m → ∃ b, loc (P.take k) = some b) →
      ∃ qs, branchLoop h P ((List.range m).map (· + l)) (.heap a) = .ok qs ∧ qs.length = m ∧
        ∀ k, k < m → ∃ b, loc (P.take (l + k + 1)) = some b ∧ qs[k]? = some (.heap b) := by
  intro m
  induction m with
  | zero => intro l a _ _ _; exact ⟨[], rfl, rfl, fun k hk => absurd hk (by omega)⟩
  | succ m ih =>
    intro l a hl ha hlive
    have hget : P[l]? = some P[l] := List.getElem?_eq_getElem (by omega)
    obtain ⟨b, hb⟩ := hlive (l + 1) (by omega)
    have htake := take_succ_of_getElem? hget
    rw [htake] at hb
    have hc := H.child ha hb
    rw [← htake] at hb
    obtain ⟨qs, e1, e2, e3⟩ := ih (l + 1) b (by omega) hb (fun k hk => hlive k (by omega))
    refine ⟨.heap b :: qs, ?_, by simp [e2], ?_⟩
    · rw [List.range_succ_eq_map, List.map_cons, List.map_map]
      simp only [branchLoop, Nat.zero_add, getP_some hget, bind_ok, hc, Cell.asPtr]
      have : (List.range m).map ((· + l) ∘ Nat.succ) = (List.range m).map (· + (l + 1)) := by
        apply List.map_congr_left; intro x _; simp; omega
      rw [this, e1]; rfl
    · intro k hk
      cases k with
      | zero => exact ⟨b, hb, rfl⟩
      | succ k =>
        obtain ⟨b', h1, h2⟩ := e3 k (by omega)
        exact ⟨b', by rw [← h1]; congr 2; omega, by simpa using h2⟩

/-- `get_terminal_node` on the path of a live terminal node. -/
theorem TInv.terminal_live (H : TInv D h root loc K) (_hD1 : 1 ≤ D) {p : List Nat} {i a : Nat}
    (ha : loc p = some a) (hp : p.length + 1 = D) :
    getTerminalNode D h root (p ++ [i]) = .ok (.heap a, i) := by
  obtain ⟨r, hr, hroot⟩ := H.root
  have hlen : (p ++ [i]).length = D := by simp [hp]
  have htk : ∀ k, k ≤ p.length → (p ++ [i]).take k = p.take k :=
    fun k hk => List.take_append_of_le_length hk
  obtain ⟨qs, e1, e2, e3⟩ := H.branch_live (P := p ++ [i]) (D - 1) 0 r (by omega)
    (by simpa using hr) (fun k hk => by
      rw [htk k (by omega)]; exact H.take_live _ rfl ha k)
  have hmap : (List.range (D - 1)).map (· + 0) = List.range (D - 1) := by simp
  rw [hmap] at e1
  have := terminalLoop_eq (List.range (D - 1)) (.heap r) qs
    (fun n hn => by simp only [List.mem_range] at hn; omega) e1
  unfold getTerminalNode
  rw [hroot, this]
  simp only [bind_ok, List.getLast?_append, List.getLast?_singleton, Option.some_or, unwrapU,
    pure_eq_ok]
  congr 2
  by_cases hz : D - 1 = 0
  · have : qs = [] := List.length_eq_zero_iff.1 (by omega)
    subst this
    have : p = [] := List.length_eq_zero_iff.1 (by omega)
    subst this
    rw [hr] at ha; cases ha; rfl
  · obtain ⟨b, h1, h2⟩ := e3 (D - 1 - 1) (by omega)
    rw [show 0 + (D - 1 - 1) + 1 = p.length by omega, htk _ (Nat.le_refl _),
      List.take_length, ha] at h1
    cases h1
    have hne : qs ≠ [] := by intro e; rw [e] at e2; simp at e2; omega
    rw [List.getLast_cons hne]
    rw [List.getLast_eq_getElem]
    have h3 : qs[qs.length - 1]? = some (.heap a) := by rw [← h2]; congr 1; omega
    rw [List.getElem?_eq_getElem (by omega)] at h3
    simpa using h3


/-! ## The descent of `get_or_insert_impl` -/

theorem read_slot {w : Walk} (H : TInv D w.heap w.root loc K) {p : List Nat} {a : Nat}
    (ha : loc p = some a) (hs : SlotAt loc (cellsOf D loc K) w.slot p) :
    w.read = .ok (.heap a) := by
  obtain ⟨h, root, slot⟩ := w
  cases slot with
  | root =>
    simp only [SlotAt] at hs
    subst hs
    obtain ⟨r, h1, h2⟩ := H.root
    rw [ha] at h1; cases h1
    simp only at h2
    simp [Walk.read, h2]
  | cell b d =>
    obtain ⟨q, j, rfl, hb, rfl⟩ := hs
    obtain ⟨hv, hl⟩ := H.valid _ _ ha
    simp only [List.length_append, List.length_singleton] at hl
    obtain ⟨n, h1, -, h3, -⟩ := H.rep.setCell hb (ValidPath.of_append hv).2
      (v := .ptr (.heap a)) (by rw [cellsOf_branch hl, ha]; rfl) .uninit
    simp only at h1
    simp only [Walk.read, h1, unwrapU, bind_ok, getU_some h3, Cell.asPtr]

/-- Writing the (possibly moved) node pointer back into its slot. -/
theorem write_slot {h : Heap} {root : Ptr} {slot : Slot} {F : List Nat → Nat → Option Cell}
    (H : HRep D h loc F) {p : List Nat} {a : Nat}
    (hv : ValidPath 64 p) (hpD : p.length < D)
    (hs : SlotAt loc F slot p) (hF : ∀ q j, p = q ++ [j] → F q j ≠ none) :
    ∃ w', (Walk.mk h root slot).write (.heap a) = .ok w' ∧ w'.slot = slot ∧
      w'.root = (if p = [] then .heap a else root) ∧
      HRep D w'.heap loc (fun r k => if r ++ [k] = p then some (.ptr (.heap a)) else F r k) := by
  cases slot with
  | root =>
    simp only [SlotAt] at hs
    subst hs
    refine ⟨_, rfl, rfl, by simp, ?_⟩
    simp only [List.append_eq_nil_iff, List.cons_ne_nil, and_false, if_false]
    exact H
  | cell b d =>
    obtain ⟨q, j, rfl, hb, rfl⟩ := hs
    obtain ⟨v, hFv⟩ : ∃ v, F q j = some v := by
      cases e : F q j with
      | none => exact absurd e (hF q j rfl)
      | some v => exact ⟨v, rfl⟩
    obtain ⟨n, h1, h2, h3, h4⟩ := H.setCell hb (ValidPath.of_append hv).2 hFv (.ptr (.heap a))
    have hkind : n.kind = .branch := by
      obtain ⟨n', tl, -, -, h1', h3', -⟩ := H.deref hb
      rw [h1] at h1'; cases h1'
      rw [h3']; unfold kindOf; rw [if_pos (by simpa using hpD)]
    refine ⟨⟨h.put b { n with cells := n.cells.set (rank (F q) j) (.ptr (.heap a)) }, root,
      .cell b (rank (F q) j)⟩, ?_, rfl, by simp, ?_⟩
    · simp only [Walk.write, h1, unwrapU, bind_ok]
      rw [if_neg (by simp [hkind])]
      simp only [setU_ok _ h2, bind_ok, pure_eq_ok]
    · refine h4.congr ?_
      intro r _ _ k _
      simp only [append_singleton_inj]
      by_cases e : r = q
      · subst e
        rw [upd_same]
        by_cases e' : k = j
        · subst e'; simp
        · simp [upd_ne _ _ e', e']
      · simp [upd_ne _ _ e, e]

/-- dense_tree.rs:130-152, one level. -/
theorem insertStep_spec {w : Walk} (H : TInv D w.heap w.root loc K) (hD : D ≤ 9)
    {P : List Nat} (hP : ValidPath 64 P) {N a : Nat} (hN : N + 2 ≤ D) (hPD : P.length = D)
    (ha : loc (P.take N) = some a)
    (hs : SlotAt loc (cellsOf D loc K) w.slot (P.take N)) :
    ∃ w' loc' b, insertStep D P w N = .ok (w', false) ∧ TInv D w'.heap w'.root loc' K ∧
      loc' (P.take (N + 1)) = some b ∧
      SlotAt loc' (cellsOf D loc' K) w'.slot (P.take (N + 1)) ∧
      (∀ r, r ≠ P.take (N + 1) → (loc' r).isSome = (loc r).isSome) ∧
      (∀ c, loc (P.take (N + 1)) = some c → w'.heap = w.heap ∧ loc' = loc) ∧
      (loc (P.take (N + 1)) = none → b = w.heap.next) := by
  have hlt : N < P.length := by omega
  have hget : P[N]? = some P[N] := List.getElem?_eq_getElem hlt
  have htake := take_succ_of_getElem? hget
  generalize hi : P[N] = i at *
  have hi64 : i < 64 := by rw [← hi]; exact hP _ (List.getElem_mem _)
  rw [htake]
  have hpv : ValidPath 64 (P.take N) := fun x hx => hP x (List.mem_of_mem_take hx)
  have hpl : (P.take N).length = N := by simp; omega
  generalize hp : P.take N = p at *
  obtain ⟨n, tl, hd, hdm, hn, hk, hrep, -⟩ := H.rep.deref ha
  have hread := read_slot H ha hs
  have hcell : cellsOf D loc K p i = (loc (p ++ [i])).map (fun a => .ptr (.heap a)) :=
    cellsOf_branch (by omega) i
  have hkind : kindOf D p = .branch := by unfold kindOf; rw [if_pos (by omega)]
  have hc := hrep.contains hi64
  cases hb : loc (p ++ [i]) with
  | some b =>
    rw [hcell, hb] at hc
    simp only [Option.map_some, Option.isSome_some] at hc
    refine ⟨⟨w.heap, w.root, .cell a (rank (cellsOf D loc K p) i)⟩, loc, b, ?_, H, hb, ?_, ?_,
      fun _ _ => ⟨rfl, rfl⟩, fun e => by cases e⟩
    · unfold insertStep
      simp only [getP_some hget, bind_ok, hread, hd, hc, if_true, hdm,
        denseIndex_eq hrep.bits hi64, pure_eq_ok]
    · exact ⟨p, i, rfl, ha, rfl⟩
    · intro r _; rfl
  | none =>
    rw [hcell, hb] at hc
    simp only [Option.map_none, Option.isSome_none] at hc
    -- the new child
    obtain ⟨h1, e1, H1⟩ := H.rep.new hb
    have hnew : (if N = D - 2 then nodeNew w.heap .term defaultCap (.idx 0)
        else do
          let e ← emptyNode (N + 2) D
          nodeNew w.heap .branch defaultCap (.ptr e)) = .ok (h1, w.heap.next) := by
      rw [← e1]
      by_cases hND : N = D - 2
      · rw [if_pos hND]
        unfold kindOf sent
        simp only [List.length_append, List.length_singleton, hpl]
        rw [if_neg (by omega), if_neg (by omega)]
      · rw [if_neg hND]
        unfold kindOf sent emptyNode
        simp only [List.length_append, List.length_singleton, hpl]
        rw [if_pos (by omega), if_pos (by omega), if_pos (by omega)]
        rfl
    have hne : p ≠ p ++ [i] := fun e => append_ne_self p i e.symm
    have ha1 : upd loc (p ++ [i]) (some w.heap.next) p = some a := by rw [upd_ne _ _ hne]; exact ha
    have hF1 : upd (cellsOf D loc K) (p ++ [i]) (fun _ => none) p = cellsOf D loc K p :=
      upd_ne _ _ hne
    obtain ⟨h2, a', e2, H2⟩ := H1.insert ha1 hi64 (by rw [hF1, hcell, hb]; rfl)
      (.ptr (.heap w.heap.next))
    rw [hF1] at e2 H2
    rw [hkind] at e2
    -- name the new placement
    generalize hloc2 : upd (upd loc (p ++ [i]) (some w.heap.next)) p (some a') = loc2 at H2
    have l2p : loc2 p = some a' := by rw [← hloc2]; simp
    have l2c : loc2 (p ++ [i]) = some w.heap.next := by
      rw [← hloc2, upd_ne _ _ (append_ne_self p i)]; simp
    have l2o : ∀ r, r ≠ p → r ≠ p ++ [i] → loc2 r = loc r := by
      intro r g1 g2; rw [← hloc2, upd_ne _ _ g1, upd_ne _ _ g2]
    generalize hF2 : upd (upd (cellsOf D loc K) (p ++ [i]) fun _ => none) p
      (upd (cellsOf D loc K p) i (some (.ptr (.heap w.heap.next)))) = F2 at H2
    have f2p : F2 p = upd (cellsOf D loc K p) i (some (.ptr (.heap w.heap.next))) := by
      rw [← hF2]; simp
    have f2c : F2 (p ++ [i]) = fun _ => none := by
      rw [← hF2, upd_ne _ _ (append_ne_self p i)]; simp
    have f2o : ∀ r, r ≠ p → r ≠ p ++ [i] → F2 r = cellsOf D loc K r := by
      intro r g1 g2; rw [← hF2, upd_ne _ _ g1, upd_ne _ _ g2]
    have hq : ∀ q j, p = q ++ [j] → q ≠ p ∧ q ≠ p ++ [i] := by
      intro q j e
      constructor
      · intro e'; rw [e'] at e; exact append_ne_self _ _ e.symm
      · intro e'
        have := congrArg List.length e
        have := congrArg List.length e'
        simp at *; omega
    have hs2 : SlotAt loc2 F2 w.slot p := by
      revert hs
      cases w.slot with
      | root => exact id
      | cell b d =>
        rintro ⟨q, j, e, hb', rfl⟩
        obtain ⟨g1, g2⟩ := hq q j e
        exact ⟨q, j, e, by rw [l2o q g1 g2]; exact hb', by rw [f2o q g1 g2]⟩
    obtain ⟨w', e3, e4, e5, H3⟩ := write_slot (root := w.root) (a := a') H2 hpv (by omega) hs2 (by
      intro q j e
      obtain ⟨g1, g2⟩ := hq q j e
      rw [f2o q g1 g2, cellsOf_branch (by rw [e] at hpl; simp at hpl; omega), ← e, ha]
      simp)
    -- coherence
    have hcoh : ∀ r b, loc2 r = some b → ∀ k, k < 64 →
        (if r ++ [k] = p then some (.ptr (.heap a')) else F2 r k) = cellsOf D loc2 K r k := by
      intro r b hr k hk
      by_cases e : r ++ [k] = p
      · rw [if_pos e, cellsOf_branch (by rw [← e] at hpl; simp at hpl; omega), e, l2p]; rfl
      · rw [if_neg e]
        by_cases er : r = p
        · subst er
          rw [f2p, cellsOf_branch (by omega)]
          by_cases ek : k = i
          · subst ek; rw [upd_same, l2c]; rfl
          · rw [upd_ne _ _ ek, cellsOf_branch (by omega),
              l2o _ (append_ne_self _ _) (by rw [Ne, append_singleton_inj]; simp [ek])]
        · by_cases er' : r = p ++ [i]
          · subst er'
            rw [f2c]
            unfold cellsOf
            by_cases hb2 : (p ++ [i]).length + 1 < D
            · rw [if_pos hb2, l2o]
              · cases e' : loc (p ++ [i] ++ [k]) with
                | none => rfl
                | some x =>
                  obtain ⟨y, hy⟩ := H.closed _ _ _ e'
                  rw [hb] at hy; cases hy
              · intro e'; have := congrArg List.length e'; simp at this
              · exact append_ne_self _ _
            · rw [if_neg hb2]
              cases e' : K (p ++ [i] ++ [k]) with
              | none => rfl
              | some x =>
                obtain ⟨y, hy⟩ := H.klive _ _ _ e'
                rw [hb] at hy; cases hy
          · rw [f2o r er er']
            unfold cellsOf
            split
            · rw [l2o _ e (by rw [Ne, append_singleton_inj]; simp [er])]
            · rfl
    have H4 := H3.congr hcoh
    have hT : TInv D w'.heap w'.root loc2 K := by
      refine ⟨H4, ?_, ?_, ?_, H.kvalid, ?_⟩
      · rw [e5]
        by_cases e : p = []
        · subst e; exact ⟨a', l2p, by simp⟩
        · rw [if_neg e, l2o _ (Ne.symm e) (by simp)]
          exact H.root
      · intro r b hr
        by_cases er : r = p
        · subst er; exact ⟨hpv, by omega⟩
        · by_cases er' : r = p ++ [i]
          · subst er'; exact ⟨ValidPath.append hpv hi64, by simp; omega⟩
          · rw [l2o r er er'] at hr; exact H.valid r b hr
      · intro r k b hr
        by_cases er : r = p
        · subst er; exact ⟨a', l2p⟩
        · by_cases er' : r = p ++ [i]
          · subst er'; exact ⟨_, l2c⟩
          · rw [l2o r er er']
            by_cases ek : r ++ [k] = p
            · rw [← ek] at ha; exact H.closed _ _ _ ha
            · rw [l2o _ ek (by rw [Ne, append_singleton_inj]; simp [er])] at hr
              exact H.closed _ _ _ hr
      · intro r k d hr
        by_cases er : r = p
        · subst er; exact ⟨a', l2p⟩
        · by_cases er' : r = p ++ [i]
          · subst er'; exact ⟨_, l2c⟩
          · rw [l2o r er er']; exact H.klive _ _ _ hr
    refine ⟨{ w' with slot := .cell a' (rank (cellsOf D loc K p) i) }, loc2, w.heap.next, ?_, hT,
      l2c, ?_, ?_, fun _ e => (by cases e), fun _ => rfl⟩
    · unfold insertStep
      simp only [getP_some hget, bind_ok, hread, hd, hc]
      simp only [Bool.false_eq_true, if_false]
      by_cases hND : N = D - 2
      · rw [if_pos hND] at hnew ⊢
        simp only [hnew, bind_ok, e2, e3, pure_eq_ok]
      · rw [if_neg hND] at hnew ⊢
        cases he : emptyNode (N + 2) D with
        | error x => rw [he] at hnew; cases hnew
        | ok x =>
          rw [he] at hnew
          simp only [bind_ok] at hnew ⊢
          simp only [hnew, bind_ok, e2, e3, pure_eq_ok]
    · refine ⟨p, i, rfl, l2p, ?_⟩
      rw [← rank_upd (cellsOf D loc K p) i (some (.ptr (.heap w.heap.next))), ← f2p]
      refine rank_congr hi64 ?_
      intro k hk
      have := hcoh p a' l2p k hk
      rwa [if_neg (append_ne_self p k)] at this
    · intro r hr
      by_cases er : r = p
      · subst er; rw [l2p, ha]; rfl
      · rw [l2o r er hr]

/-- The whole descent. -/
theorem insertWalk_spec {α : Type} {t : DT α} (H : TInv D t.heap t.root loc K) (hD : D ≤ 9)
    (hD1 : 1 ≤ D) {P : List Nat} (hP : ValidPath 64 P) (hPD : P.length = D) :
    ∃ w loc' b, insertWalk D t P = .ok w ∧ TInv D w.heap w.root loc' K ∧
      loc' (P.take (D - 1)) = some b ∧
      SlotAt loc' (cellsOf D loc' K) w.slot (P.take (D - 1)) ∧
      ∀ r, (∀ k, 1 ≤ k → k ≤ D - 1 → r ≠ P.take k) → (loc' r).isSome = (loc r).isSome := by
  have key : ∀ (n m : Nat) (w : Walk) (loc : List Nat → Option Nat) (a : Nat),
      m + n = D - 1 → TInv D w.heap w.root loc K → loc (P.take m) = some a →
      SlotAt loc (cellsOf D loc K) w.slot (P.take m) →
      ∃ w' loc' b, visitList (insertStep D P) ((List.range n).map (· + m)) w = .ok (w', false) ∧
        TInv D w'.heap w'.root loc' K ∧
        loc' (P.take (D - 1)) = some b ∧
        SlotAt loc' (cellsOf D loc' K) w'.slot (P.take (D - 1)) ∧
        ∀ r, (∀ k, m + 1 ≤ k → k ≤ D - 1 → r ≠ P.take k) → (loc' r).isSome = (loc r).isSome := by
    intro n
    induction n with
    | zero =>
      intro m w loc a hm H ha hs
      have : m = D - 1 := by omega
      subst this
      exact ⟨w, loc, a, rfl, H, ha, hs, fun r _ => rfl⟩
    | succ n ih =>
      intro m w loc a hm H ha hs
      obtain ⟨w1, loc1, b1, e1, H1, hb1, hs1, hl1, -, -⟩ :=
        insertStep_spec H hD hP (by omega) hPD ha hs
      obtain ⟨w2, loc2, b2, e2, H2, hb2, hs2, hl2⟩ := ih (m + 1) w1 loc1 b1 (by omega) H1 hb1 hs1
      refine ⟨w2, loc2, b2, ?_, H2, hb2, hs2, ?_⟩
      · rw [List.range_succ_eq_map, List.map_cons, List.map_map]
        simp only [visitList, Nat.zero_add, e1, bind_ok, Bool.false_eq_true, if_false]
        have : (List.range n).map ((· + m) ∘ Nat.succ) = (List.range n).map (· + (m + 1)) := by
          apply List.map_congr_left; intro x _; simp; omega
        rw [this, e2]
      · intro r hr
        rw [hl2 r (fun k g1 g2 => hr k (by omega) g2), hl1 r (hr (m + 1) (by omega) (by omega))]
  obtain ⟨a, hr, hroot⟩ := H.root
  obtain ⟨w', loc', b, e1, H1, hb, hs, hl⟩ := key (D - 1) 0 ⟨t.heap, t.root, .root⟩ loc a
    (by omega) H (by simpa using hr) (by simp [SlotAt])
  refine ⟨w', loc', b, ?_, H1, hb, hs, ?_⟩
  · unfold insertWalk
    rw [constLoop_eq _ _ _ _ (by omega) (by omega)]
    have : rangeFromTo 0 (D - 1) = (List.range (D - 1)).map (· + 0) := rfl
    rw [this, e1]; rfl
  · intro r hr; exact hl r (fun k g1 g2 => hr k (by omega) g2)

/-! ## Represented maps -/

/-- The representation invariant with its ghost state. -/
structure DS {α : Type} (D : Nat) (t : DT α) (M : Nat → Option α)
    (loc K : List Nat → Option Nat) : Prop where
  tree : TInv D t.heap t.root loc K
  data : DInv K t.data t.keys
  den : ∀ k, M k = if k < 64 ^ D then (K (path 64 D k)).bind fun d => (t.data[d]?).join else none

/-- `t` holds the finite map `M`; its branch nodes may have lost their sentinels. -/
def DRep {α : Type} (D : Nat) (t : DT α) (M : Nat → Option α) : Prop := ∃ loc K, DS D t M loc K

variable {α : Type} {t : DT α} {M : Nat → Option α}

theorem DS.den_path (S : DS D t M loc K) {P : List Nat} (hP : ValidPath 64 P)
    (hl : P.length = D) : M (unpath 64 P) = (K P).bind fun d => (t.data[d]?).join := by
  have hlt : unpath 64 P < 64 ^ D := by rw [← hl]; exact unpath_lt hP
  rw [S.den, if_pos hlt]
  have := path_unpath hP
  rw [hl] at this
  rw [this]

/-- The data index found by an unchecked walk towards an absent key is another key's. -/
theorem DS.wrong_key (S : DS D t M loc K) (h9 : D ≤ 9) {P : List Nat}
    (hP : ValidPath 64 P) (hl : P.length = D) (hK : K P = none) {d : Nat}
    (hd : d = 0 ∨ ∃ Q, K Q = some d) :
    ∃ key, t.keys[d]? = some key ∧ key ≠ unpath 64 P := by
  rcases hd with rfl | ⟨Q, hQ⟩
  · refine ⟨_, S.data.key0, ?_⟩
    have : unpath 64 P < 64 ^ D := by rw [← hl]; exact unpath_lt hP
    have := pow_lt_usize h9
    omega
  · refine ⟨_, (S.data.keyOf Q d hQ).2, ?_⟩
    intro e
    obtain ⟨hQv, hQl⟩ := S.tree.kvalid Q d hQ
    have e1 := path_unpath hQv
    have e2 := path_unpath hP
    rw [hQl] at e1
    rw [hl] at e2
    rw [e, e2] at e1
    rw [e1] at hK
    rw [hK] at hQ; cases hQ

/-- The terminal node of `P` exists. -/
def BlockLive (D : Nat) (loc : List Nat → Option Nat) (P : List Nat) : Prop :=
  ∃ a, loc (P.take (D - 1)) = some a

theorem DS.treeData_eq (S : DS D t M loc K) (h1 : 1 ≤ D) (h9 : D ≤ 9) {P : List Nat}
    (hP : ValidPath 64 P) (hl : P.length = D) (hb : BlockLive D loc P) :
    treeData D t (unpath 64 P) P = .ok (M (unpath 64 P)) := by
  rw [S.den_path hP hl]
  rcases eq_nil_or_append P with rfl | ⟨p, i, rfl⟩
  · simp at hl; omega
  have hpl : p.length + 1 = D := by simpa using hl
  obtain ⟨a, ha⟩ := hb
  rw [List.take_append_of_le_length (by omega), List.take_of_length_le (by omega)] at ha
  have e1 := S.tree.terminal_live h1 (i := i) ha hpl
  cases hK : K (p ++ [i]) with
  | some d =>
    obtain ⟨g1, v, g2⟩ := S.data.value hK
    unfold treeData
    simp only [e1, bind_ok, S.tree.idx ha hK, Cell.asIdx, getU_some (S.data.keyOf _ _ hK).2,
      if_true, getU_some g2, unwrapU, pure_eq_ok, Option.bind_some, g2]
    rfl
  | none =>
    obtain ⟨d, e4, e5⟩ := S.tree.idx_any ha hpl (ValidPath.of_append hP).2
    obtain ⟨key, e6, e7⟩ := S.wrong_key h9 hP hl hK e5
    unfold treeData
    simp only [e1, bind_ok, e4, Cell.asIdx, getU_some e6, if_neg e7, pure_eq_ok, Option.bind_none]

/-- The terminal node of a stored key's block exists. -/
theorem DS.blockLive (S : DS D t M loc K) (h1 : 1 ≤ D) {k k' : Nat} (hk : k < 64 ^ D)
    (hk' : M k' ≠ none) (e : k' / 64 = k / 64) : BlockLive D loc (path 64 D k) := by
  have hM := hk'
  rw [S.den] at hM
  have hlt : k' < 64 ^ D := by
    apply Classical.byContradiction
    intro h
    rw [if_neg h] at hM; exact hM rfl
  rw [if_pos hlt, path_block h1 hlt] at hM
  cases hK : K (path 64 (D - 1) (k' / 64) ++ [k' % 64]) with
  | none => rw [hK] at hM; exact absurd rfl hM
  | some d =>
    obtain ⟨b, hb'⟩ := S.tree.klive _ _ _ hK
    refine ⟨b, ?_⟩
    rw [path_block h1 hk, List.take_append_of_le_length (by simp),
      List.take_of_length_le (by simp), ← e]
    exact hb'

theorem get_spec (S : DRep D t M) (h1 : 1 ≤ D) (h9 : D ≤ 9) {k k' : Nat} (hk : k < 64 ^ D)
    (hk' : M k' ≠ none) (e : k' / 64 = k / 64) : (impl α D).get t k = .ok (M k) := by
  obtain ⟨loc, K, S⟩ := S
  have hp := validPath_path hk
  have := S.treeData_eq h1 h9 hp (path_length 64 D k) (S.blockLive h1 hk hk' e)
  rw [unpath_path 64 D k hk] at this
  unfold Impl.get
  show (do let index ← indexFrom 1 D k; let indices ← levelIndices 1 D index; treeData D t index indices) = _
  rw [indexFrom_ok h9, if_pos hk]
  simp only [bind_ok]
  rw [levelIndices_ok h1 h9]
  simpa using this

/-- Insertion of a data index into a terminal node. -/
theorem insertTerm_spec {w : Walk} (H : TInv D w.heap w.root loc K)
    {p : List Nat} {i a : Nat} (hP : ValidPath 64 (p ++ [i])) (hp : p.length + 1 = D)
    (ha : loc p = some a) (hs : SlotAt loc (cellsOf D loc K) w.slot p)
    (hK : K (p ++ [i]) = none) (d : Nat) :
    ∃ h' x a' w', nodeInsert w.heap .term (.heap a) i (.idx d) = .ok (h', x, a') ∧
      { w with heap := h' }.write (.heap a') = .ok w' ∧
      TInv D w'.heap w'.root (upd loc p (some a')) (upd K (p ++ [i]) (some d)) := by
  obtain ⟨hpv, hi⟩ := ValidPath.of_append hP
  have hF : cellsOf D loc K p i = none := by rw [cellsOf_term hp, hK]; rfl
  have hkind : kindOf D p = .term := by unfold kindOf; rw [if_neg (by omega)]
  obtain ⟨h', a', e1, H1⟩ := H.rep.insert ha hi hF (.idx d)
  rw [hkind] at e1
  have hq : ∀ q j, p = q ++ [j] → q ≠ p := by
    intro q j e e'; rw [e'] at e; exact append_ne_self _ _ e.symm
  obtain ⟨w', e2, -, e4, H2⟩ := write_slot (root := w.root) (slot := w.slot) (a := a') H1 hpv (by omega) (by
    revert hs
    cases w.slot with
    | root => exact id
    | cell b d =>
      rintro ⟨q, j, e, hb', rfl⟩
      exact ⟨q, j, e, by rw [upd_ne _ _ (hq q j e)]; exact hb', by rw [upd_ne _ _ (hq q j e)]⟩) (by
      intro q j e
      rw [upd_ne _ _ (hq q j e), cellsOf_branch (by rw [e] at hp; simp at hp; omega), ← e, ha]
      simp)
  refine ⟨h', _, a', w', e1, e2, H2.congr ?_, ?_, ?_, ?_, ?_, ?_⟩
  · intro r b hr k hk
    by_cases e : r ++ [k] = p
    · rw [if_pos e, cellsOf_branch (by rw [← e] at hp; simp at hp; omega), e, upd_same]; rfl
    · rw [if_neg e]
      by_cases er : r = p
      · subst er
        rw [upd_same, cellsOf_term hp]
        by_cases ek : k = i
        · subst ek; simp
        · rw [upd_ne _ _ ek, upd_ne _ _ (by rw [Ne, append_singleton_inj]; simp [ek]),
            cellsOf_term hp]
      · rw [upd_ne _ _ er]
        unfold cellsOf
        split
        · rw [upd_ne _ _ e]
        · rw [upd_ne _ _ (by rw [Ne, append_singleton_inj]; simp [er])]
  · rw [e4]
    by_cases e : p = []
    · subst e; exact ⟨a', by simp, by simp⟩
    · rw [if_neg e, upd_ne _ _ (Ne.symm e)]
      exact H.root
  · intro r b hr
    by_cases er : r = p
    · subst er; exact ⟨hpv, by omega⟩
    · rw [upd_ne _ _ er] at hr; exact H.valid r b hr
  · intro r k b hr
    by_cases er : r = p
    · subst er; exact ⟨a', by simp⟩
    · rw [upd_ne _ _ er]
      by_cases ek : r ++ [k] = p
      · rw [← ek] at ha; exact H.closed _ _ _ ha
      · rw [upd_ne _ _ ek] at hr; exact H.closed _ _ _ hr
  · intro Q x hQ
    by_cases e : Q = p ++ [i]
    · subst e; exact ⟨hP, by simp [hp]⟩
    · rw [upd_ne _ _ e] at hQ; exact H.kvalid _ _ hQ
  · intro r k x hr
    by_cases er : r = p
    · subst er; exact ⟨a', by simp⟩
    · rw [upd_ne _ _ er]
      rw [upd_ne _ _ (by rw [Ne, append_singleton_inj]; simp [er])] at hr
      exact H.klive _ _ _ hr

/-- What `get_or_insert_impl` does to the represented map. -/
theorem getOrInsertImpl_spec (R : DRep D t M) (h1 : 1 ≤ D) (h9 : D ≤ 9) {k : Nat}
    (hk : k < 64 ^ D) (ins : Bool) (v : α) (hroom : M k = none → t.data.length < 2 ^ 32) :
    ∃ out, getOrInsertImpl D t k ins v = .ok out ∧
      DRep D out.tree (upd M k (some (if ins then v else (M k).getD v))) ∧
      out.tree.data[out.dataIndex]? = some (some (if ins then v else (M k).getD v)) ∧
      out.dropped = (if ins then (M k).toList else []) ∧
      out.called = (ins || (M k).isNone) ∧
      out.tree.data.length = t.data.length + (if (M k).isNone then 1 else 0) := by
  obtain ⟨loc, K, S⟩ := R
  have hPv := validPath_path hk
  have hPl := path_length 64 D k
  have hden := S.den_path hPv hPl
  rw [unpath_path 64 D k hk] at hden
  obtain ⟨w, loc', b, e1, T1, hb, hs, hl⟩ := insertWalk_spec S.tree h9 h1 hPv hPl
  have hupath := unpath_path 64 D k hk
  have hpinj : ∀ k', k' < 64 ^ D → (path 64 D k' = path 64 D k ↔ k' = k) :=
    fun k' hk' => ⟨fun e => path_injOn hk' hk e, fun e => by rw [e]⟩
  generalize path 64 D k = P at *
  rcases eq_nil_or_append P with rfl | ⟨p, i, rfl⟩
  · simp at hPl; omega
  have hpl : p.length + 1 = D := by simpa using hPl
  have htk : (p ++ [i]).take (D - 1) = p := by
    rw [List.take_append_of_le_length (by omega), List.take_of_length_le (by omega)]
  have hlev : levelIndices 1 D k = .ok (p ++ [i]) := by
    rw [levelIndices_ok h1 h9, (hpinj k hk).2 rfl]
  have hp2 := hb
  rw [htk] at hp2 hs
  have hread := read_slot T1 hp2 hs
  have hlast : (p ++ [i]).getLast? = some i := by simp
  obtain ⟨hpv, hi⟩ := ValidPath.of_append hPv
  obtain ⟨n, tl, hd, -, -, -, hrep, -⟩ := T1.rep.deref hp2
  have hc := hrep.contains hi
  rw [cellsOf_term hpl] at hc
  cases hK : K (p ++ [i]) with
  | some d =>
    obtain ⟨g1, ov, g2⟩ := S.data.value hK
    have hM : M k = some ov := by rw [hden, hK]; simp [g2]
    rw [hK] at hc
    simp only [Option.map_some, Option.isSome_some] at hc
    have hidx := T1.idx hp2 hK
    cases ins with
    | true =>
      refine ⟨⟨⟨w.heap, w.root, t.data.set d (some v), t.keys⟩, d, [ov], true⟩, ?_, ?_, ?_, ?_,
        rfl, ?_⟩
      · unfold getOrInsertImpl
        simp only [hlev, bind_ok, e1, hread, hlast, unwrapU, hd, hc, if_true, hidx, Cell.asIdx,
          getU_some g2, setU_ok _ g1, pure_eq_ok]
      · refine ⟨loc', K, T1, ⟨?_, ?_, S.data.key0, ?_, S.data.keyOf, S.data.surj, ?_⟩, ?_⟩
        · simp [S.data.len]
        · simpa using S.data.bound
        · have := (S.data.keyOf _ _ hK).1
          rw [List.getElem?_set_ne (by omega)]; exact S.data.data0
        · intro d' q1 q2
          by_cases e : d' = d
          · subst e; exact ⟨v, by simp [g1]⟩
          · simp only at q2 ⊢
            rw [List.getElem?_set_ne (by omega)]
            exact S.data.init d' q1 (by simpa using q2)
        · intro k'
          by_cases e : k' = k
          · subst e
            rw [upd_same, if_pos hk, (hpinj _ hk).2 rfl, hK]
            simp [g1]
          · rw [upd_ne _ _ e, S.den]
            by_cases hk' : k' < 64 ^ D
            · rw [if_pos hk', if_pos hk']
              cases hK' : K (path 64 D k') with
              | none => rfl
              | some d' =>
                have : d ≠ d' := by
                  intro e'
                  subst e'
                  have a1 := (S.data.keyOf _ _ hK).2
                  have a2 := (S.data.keyOf _ _ hK').2
                  rw [a1, hupath, unpath_path 64 D k' hk'] at a2
                  simp at a2; exact e a2.symm
                simp only [Option.bind_some]
                rw [List.getElem?_set_ne this]
            · rw [if_neg hk', if_neg hk']
      · simp [g1]
      · simp [hM]
      · simp [hM]
    | false =>
      refine ⟨⟨⟨w.heap, w.root, t.data, t.keys⟩, d, [], false⟩, ?_, ?_, ?_, ?_, ?_, ?_⟩
      · unfold getOrInsertImpl
        simp only [hlev, bind_ok, e1, hread, hlast, unwrapU, hd, hc, if_true, hidx, Cell.asIdx,
          getU_some g2, pure_eq_ok, Bool.false_eq_true, if_false]
      · refine ⟨loc', K, T1, S.data, ?_⟩
        have : upd M k (some (if false = true then v else (M k).getD v)) = M := by
          funext x
          by_cases e : x = k
          · subst e; simp [hM]
          · rw [upd_ne _ _ e]
        rw [this]
        exact S.den
      · simp [hM, g2]
      · rfl
      · simp [hM]
      · simp [hM]
  | none =>
    have hM : M k = none := by rw [hden, hK]; rfl
    have hroom := hroom hM
    rw [hK] at hc
    simp only [Option.map_none, Option.isSome_none] at hc
    obtain ⟨h', x, a', w', e2, e3, T2⟩ := insertTerm_spec T1 hPv hpl hp2 hs hK
      (t.data.length % 2 ^ 32)
    rw [Nat.mod_eq_of_lt hroom] at e2 T2
    have hval : (if ins = true then v else (M k).getD v) = v := by rw [hM]; cases ins <;> rfl
    have hlen1 : 1 ≤ t.data.length := by
      obtain ⟨hn, _⟩ := List.getElem?_eq_some_iff.1 S.data.data0; omega
    refine ⟨⟨⟨w'.heap, w'.root, t.data ++ [some v], t.keys ++ [k]⟩, t.data.length, [], true⟩,
      ?_, ?_, ?_, ?_, ?_, ?_⟩
    · unfold getOrInsertImpl
      simp only [hlev, bind_ok, e1, hread, hlast, unwrapU, hd, hc, Bool.false_eq_true, if_false,
        Nat.mod_eq_of_lt hroom, e2, e3, pure_eq_ok]
    · rw [hval]
      refine ⟨_, _, T2, ⟨?_, ?_, ?_, ?_, ?_, ?_, ?_⟩, ?_⟩
      · simp [S.data.len]
      · simp; omega
      · rw [getElem?_append_single, S.data.len, if_neg (by omega)]; exact S.data.key0
      · rw [getElem?_append_single, if_neg (by omega)]; exact S.data.data0
      · intro Q d hQ
        by_cases e : Q = p ++ [i]
        · subst e
          simp only [upd_same, Option.some.injEq] at hQ
          subst hQ
          refine ⟨hlen1, ?_⟩
          rw [getElem?_append_single, S.data.len, if_pos rfl, hupath]
        · rw [upd_ne _ _ e] at hQ
          have := S.data.value hQ
          refine ⟨(S.data.keyOf Q d hQ).1, ?_⟩
          rw [getElem?_append_single, S.data.len, if_neg (by omega)]
          exact (S.data.keyOf Q d hQ).2
      · intro d q1 q2
        simp only [List.length_append, List.length_singleton, S.data.len] at q2
        by_cases e : d = t.data.length
        · exact ⟨p ++ [i], by simp [e]⟩
        · obtain ⟨Q, hQ⟩ := S.data.surj d q1 (by rw [S.data.len]; omega)
          refine ⟨Q, ?_⟩
          rw [upd_ne _ _ (by intro e'; rw [e', hK] at hQ; cases hQ)]; exact hQ
      · intro d q1 q2
        simp only [List.length_append, List.length_singleton] at q2
        rw [getElem?_append_single]
        by_cases e : d = t.data.length
        · rw [if_pos e]; exact ⟨v, rfl⟩
        · rw [if_neg e]; exact S.data.init d q1 (by omega)
      · intro k'
        by_cases e : k' = k
        · subst e
          rw [upd_same, if_pos hk, (hpinj _ hk).2 rfl, upd_same]
          simp
        · rw [upd_ne _ _ e, S.den]
          by_cases hk' : k' < 64 ^ D
          · rw [if_pos hk', if_pos hk', upd_ne _ _ (fun e' => e ((hpinj k' hk').1 e'))]
            cases hK' : K (path 64 D k') with
            | none => rfl
            | some d' =>
              have := S.data.value hK'
              simp only [Option.bind_some]
              rw [getElem?_append_single, if_neg (by omega)]
          · rw [if_neg hk', if_neg hk']
    · rw [hval]; simp
    · simp [hM]
    · simp [hM]
    · simp [hM]

end Hibit.Dense.Weak
