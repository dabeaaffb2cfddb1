import Verif.ListLemmas
import Verif.Dense.Heap
import Verif.IndexLemmas
import Verif.IterLemmas
/-!
# DenseTree: the invariant
-/
namespace Hibit.Dense
open Hibit

/-- The children cells determined by the placement `loc` and the data indices `K`. -/
def cellsOf (D : Nat) (loc K : List Nat → Option Nat) (p : List Nat) (i : Nat) : Option Cell :=
  if p.length + 1 < D then (loc (p ++ [i])).map (fun a => .ptr (.heap a))
  else (K (p ++ [i])).map .idx

/-- Shape of the node forest, relative to the actual children `F`. -/
structure TI (D : Nat) (h : Heap) (root : Ptr) (loc K : List Nat → Option Nat)
    (F : List Nat → Nat → Option Cell) : Prop where
  rep : HRep D h loc F
  root : ∃ a, loc [] = some a ∧ root = .heap a
  valid : ∀ p a, loc p = some a → ValidPath 64 p ∧ p.length < D
  closed : ∀ p i a, loc (p ++ [i]) = some a → ∃ b, loc p = some b
  kvalid : ∀ P d, K P = some d → ValidPath 64 P ∧ P.length = D
  klive : ∀ p i d, K (p ++ [i]) = some d → ∃ b, loc p = some b

/-- The tree invariant: cells hold what they should. -/
abbrev TInv (D : Nat) (h : Heap) (root : Ptr) (loc K : List Nat → Option Nat) : Prop :=
  TI D h root loc K (cellsOf D loc K)

/-- Every live node but the root for which exactness is claimed (`ex`) has a child. The nodes on the way
to a key whose `T::default()` panicked inside `get_or_insert` may be empty, and a tree materialized
from an inexact one may have empty nodes anywhere. -/
def Exact (ex : List Nat → Prop) (loc : List Nat → Option Nat) (F : List Nat → Nat → Option Cell) : Prop :=
  ∀ p a, ex p → loc p = some a → p ≠ [] → ∃ i, i < 64 ∧ F p i ≠ none

/-- Exactness is claimed everywhere. -/
abbrev AllNodes : List Nat → Prop := fun _ => True

/-- Exactness is claimed nowhere. -/
abbrev NoNode : List Nat → Prop := fun _ => False

theorem TI.congr {D : Nat} {h : Heap} {root : Ptr} {loc K : List Nat → Option Nat}
    {F G : List Nat → Nat → Option Cell} (H : TI D h root loc K F)
    (hfg : ∀ p a, loc p = some a → ∀ i, i < 64 → F p i = G p i) : TI D h root loc K G :=
  { H with rep := H.rep.congr hfg }

variable {D : Nat} {h : Heap} {root : Ptr} {loc K : List Nat → Option Nat}

theorem cellsOf_branch {p : List Nat} (hp : p.length + 1 < D) (i : Nat) :
    cellsOf D loc K p i = (loc (p ++ [i])).map (fun a => .ptr (.heap a)) := by
  unfold cellsOf; rw [if_pos hp]

theorem cellsOf_term {p : List Nat} (hp : p.length + 1 = D) (i : Nat) :
    cellsOf D loc K p i = (K (p ++ [i])).map .idx := by
  unfold cellsOf; rw [if_neg (by omega)]

/-! ## Walking down -/

/-- Where an unchecked walk may be at level `l`: a live node or the static node. -/
def WPos (D : Nat) (loc : List Nat → Option Nat) (l : Nat) (q : Ptr) : Prop :=
  (∃ p a, loc p = some a ∧ p.length = l ∧ q = .heap a) ∨ q = .stat (9 - D + l)

theorem TI.wpos_root {F} (H : TI D h root loc K F) : WPos D loc 0 root := by
  obtain ⟨a, h1, h2⟩ := H.root
  exact .inl ⟨[], a, h1, rfl, h2⟩

theorem TInv.wpos_child (H : TInv D h root loc K) (hD : D ≤ 9) {l : Nat} {q : Ptr}
    (hq : WPos D loc l q) (hl : l + 1 < D) {i : Nat} (hi : i < 64) :
    ∃ q', getChild h q i = .ok (.ptr q') ∧ WPos D loc (l + 1) q' := by
  rcases hq with ⟨p, a, h1, h2, rfl⟩ | rfl
  · obtain ⟨c, g1, -, g3⟩ := H.rep.getChild h1 hi
    rcases g3 with rfl | ⟨j, hj, g3⟩
    · unfold sent at g1
      rw [if_pos (by omega)] at g1
      exact ⟨_, g1, .inr (by rw [h2])⟩
    · rw [cellsOf_branch (by omega)] at g3
      cases hb : loc (p ++ [j]) with
      | none => rw [hb] at g3; simp at g3
      | some b =>
        rw [hb] at g3
        simp only [Option.map_some, Option.some.injEq] at g3
        subst g3
        exact ⟨_, g1, .inl ⟨_, _, hb, by simp [h2], rfl⟩⟩
  · exact ⟨_, stat_child hD hl hi, .inr rfl⟩

theorem TInv.wpos_idx (H : TInv D h root loc K) (hD : D ≤ 9) (hD1 : 1 ≤ D) {q : Ptr}
    (hq : WPos D loc (D - 1) q) {i : Nat} (hi : i < 64) :
    ∃ d, getChild h q i = .ok (.idx d) ∧ (d = 0 ∨ ∃ P, K P = some d) := by
  rcases hq with ⟨p, a, h1, h2, rfl⟩ | rfl
  · obtain ⟨c, g1, -, g3⟩ := H.rep.getChild h1 hi
    rcases g3 with rfl | ⟨j, hj, g3⟩
    · unfold sent at g1
      rw [if_neg (by omega)] at g1
      exact ⟨_, g1, .inl rfl⟩
    · rw [cellsOf_term (by omega)] at g3
      cases hb : K (p ++ [j]) with
      | none => rw [hb] at g3; simp at g3
      | some b =>
        rw [hb] at g3
        simp only [Option.map_some, Option.some.injEq] at g3
        subst g3
        exact ⟨_, g1, .inr ⟨_, hb⟩⟩
  · exact ⟨_, stat_idx hD hD1 hi, .inl rfl⟩

theorem TInv.child (H : TInv D h root loc K) {p : List Nat} {i a b : Nat}
    (ha : loc p = some a) (hb : loc (p ++ [i]) = some b) :
    getChild h (.heap a) i = .ok (.ptr (.heap b)) := by
  obtain ⟨hv, hl⟩ := H.valid _ _ hb
  simp only [List.length_append, List.length_singleton] at hl
  obtain ⟨c, g1, g2, -⟩ := H.rep.getChild ha (ValidPath.of_append hv).2
  rw [g1, g2 (.ptr (.heap b)) (by rw [cellsOf_branch hl, hb]; rfl)]

theorem TInv.idx (H : TInv D h root loc K) {p : List Nat} {i a d : Nat}
    (ha : loc p = some a) (hd : K (p ++ [i]) = some d) :
    getChild h (.heap a) i = .ok (.idx d) := by
  obtain ⟨hv, hl⟩ := H.kvalid _ _ hd
  simp only [List.length_append, List.length_singleton] at hl
  obtain ⟨c, g1, g2, -⟩ := H.rep.getChild ha (ValidPath.of_append hv).2
  rw [g1, g2 (.idx d) (by rw [cellsOf_term hl, hd]; rfl)]

theorem TI.take_live {F} (H : TI D h root loc K F) : ∀ (n : Nat) {p : List Nat} {a : Nat},
    p.length = n → loc p = some a → ∀ k, ∃ b, loc (p.take k) = some b := by
  intro n
  induction n with
  | zero =>
    intro p a hp ha k
    obtain rfl := List.length_eq_zero_iff.1 hp
    exact ⟨a, by simpa using ha⟩
  | succ n ih =>
    intro p a hp ha k
    rcases eq_nil_or_append p with rfl | ⟨q, i, rfl⟩
    · simp at hp
    · by_cases hk : k ≤ q.length
      · obtain ⟨b, hb⟩ := H.closed _ _ _ ha
        rw [List.take_append_of_le_length hk]
        exact ih (by simpa using hp) hb k
      · rw [List.take_of_length_le (by simp; omega)]
        exact ⟨a, ha⟩

/-- The loop over the branch levels, on the path to a live node. -/
theorem TInv.branch_live (H : TInv D h root loc K) {P : List Nat} :
    ∀ (m l : Nat) (a : Nat), l + m ≤ P.length → loc (P.take l) = some a →
      (∀ k, k ≤ l + m → ∃ b, loc (P.take k) = some b) →
      ∃ qs, branchLoop h P ((List.range m).map (· + l)) (.heap a) = .ok qs ∧ qs.length = m ∧
        ∀ k, k < m → ∃ b, loc (P.take (l + k + 1)) = some b ∧ qs[k]? = some (.heap b) := by
  intro m
  induction m with
  | zero => intro l a _ _ _; exact ⟨[], rfl, rfl, fun k hk => absurd hk (by omega)⟩
  | succ m ih =>
    intro l a hl ha hlive
    have hget : P[l]? = some P[l] := List.getElem?_eq_getElem (by omega)
    obtain ⟨b, hb⟩ := hlive (l + 1) (by omega)
    have htake := take_succ_of_getElem? hget
    rw [htake] at hb
    have hc := H.child ha hb
    rw [← htake] at hb
    obtain ⟨qs, e1, e2, e3⟩ := ih (l + 1) b (by omega) hb (fun k hk => hlive k (by omega))
    refine ⟨.heap b :: qs, ?_, by simp [e2], ?_⟩
    · rw [List.range_succ_eq_map, List.map_cons, List.map_map]
      simp only [branchLoop, Nat.zero_add, getP_some hget, bind_ok, hc, Cell.asPtr]
      have : (List.range m).map ((· + l) ∘ Nat.succ) = (List.range m).map (· + (l + 1)) := by
        apply List.map_congr_left; intro x _; simp; omega
      rw [this, e1]; rfl
    · intro k hk
      cases k with
      | zero => exact ⟨b, hb, rfl⟩
      | succ k =>
        obtain ⟨b', h1, h2⟩ := e3 k (by omega)
        exact ⟨b', by rw [← h1]; congr 2; omega, by simpa using h2⟩

/-- The loop over the branch levels, on any path: it stays on valid nodes. -/
theorem TInv.branch_any (H : TInv D h root loc K) (hD : D ≤ 9) {P : List Nat}
    (hP : ValidPath 64 P) :
    ∀ (m l : Nat) (q : Ptr), l + m ≤ P.length → l + m + 1 ≤ D → WPos D loc l q →
      ∃ qs, branchLoop h P ((List.range m).map (· + l)) q = .ok qs ∧ qs.length = m ∧
        ∀ k x, qs[k]? = some x → WPos D loc (l + k + 1) x := by
  intro m
  induction m with
  | zero => intro l q _ _ _; exact ⟨[], rfl, rfl, fun k x hk => by simp at hk⟩
  | succ m ih =>
    intro l q hl hlD hq
    have hget : P[l]? = some P[l] := List.getElem?_eq_getElem (by omega)
    obtain ⟨q', hc, hq'⟩ := H.wpos_child hD hq (by omega) (i := P[l])
      (hP _ (List.getElem_mem (by omega)))
    obtain ⟨qs, e1, e2, e3⟩ := ih (l + 1) q' (by omega) (by omega) hq'
    refine ⟨q' :: qs, ?_, by simp [e2], ?_⟩
    · rw [List.range_succ_eq_map, List.map_cons, List.map_map]
      simp only [branchLoop, Nat.zero_add, getP_some hget, bind_ok, hc, Cell.asPtr]
      have : (List.range m).map ((· + l) ∘ Nat.succ) = (List.range m).map (· + (l + 1)) := by
        apply List.map_congr_left; intro x _; simp; omega
      rw [this, e1]; rfl
    · intro k x hk
      cases k with
      | zero => simp at hk; subst hk; exact hq'
      | succ k =>
        have := e3 k x (by simpa using hk)
        rwa [show l + (k + 1) + 1 = l + 1 + k + 1 by omega]

/-- `terminalLoop` is the last element of `branchLoop`. -/
theorem terminalLoop_eq {P : List Nat} : ∀ (ns : List Nat) (q : Ptr) (qs : List Ptr),
    (∀ n ∈ ns, n < P.length) → branchLoop h P ns q = .ok qs →
    terminalLoop h P ns q = .ok ((q :: qs).getLast (by simp)) := by
  intro ns
  induction ns with
  | nil => intro q qs _ e; simp only [branchLoop, Except.ok.injEq] at e; subst e; rfl
  | cons n ns ih =>
    intro q qs hn e
    have hlt := hn n (by simp)
    have hget : P[n]? = some P[n] := List.getElem?_eq_getElem hlt
    simp only [branchLoop, getP_some hget, bind_ok] at e
    simp only [terminalLoop, getU_some hget, bind_ok]
    cases hc : getChild h q P[n] with
    | error er => rw [hc] at e; cases e
    | ok c =>
      rw [hc] at e
      simp only [bind_ok] at e ⊢
      cases hp : c.asPtr with
      | error er => rw [hp] at e; cases e
      | ok q' =>
        rw [hp] at e
        simp only [bind_ok] at e ⊢
        cases hb : branchLoop h P ns q' with
        | error er => rw [hb] at e; cases e
        | ok rest =>
          rw [hb] at e
          simp only [bind_ok, pure_eq_ok, Except.ok.injEq] at e
          subst e
          rw [ih q' rest (fun m hm => hn m (by simp [hm])) hb]
          simp

/-- `get_terminal_node` on the path of a live terminal node. -/
theorem TInv.terminal_live (H : TInv D h root loc K) (_hD1 : 1 ≤ D) {p : List Nat} {i a : Nat}
    (ha : loc p = some a) (hp : p.length + 1 = D) :
    getTerminalNode D h root (p ++ [i]) = .ok (.heap a, i) := by
  obtain ⟨r, hr, hroot⟩ := H.root
  have hlen : (p ++ [i]).length = D := by simp [hp]
  have htk : ∀ k, k ≤ p.length → (p ++ [i]).take k = p.take k :=
    fun k hk => List.take_append_of_le_length hk
  obtain ⟨qs, e1, e2, e3⟩ := H.branch_live (P := p ++ [i]) (D - 1) 0 r (by omega)
    (by simpa using hr) (fun k hk => by
      rw [htk k (by omega)]; exact H.take_live _ rfl ha k)
  have hmap : (List.range (D - 1)).map (· + 0) = List.range (D - 1) := by simp
  rw [hmap] at e1
  have := terminalLoop_eq (List.range (D - 1)) (.heap r) qs
    (fun n hn => by simp only [List.mem_range] at hn; omega) e1
  unfold getTerminalNode
  rw [hroot, this]
  simp only [bind_ok, List.getLast?_append, List.getLast?_singleton, Option.some_or, unwrapU,
    pure_eq_ok]
  congr 2
  by_cases hz : D - 1 = 0
  · have : qs = [] := List.length_eq_zero_iff.1 (by omega)
    subst this
    have : p = [] := List.length_eq_zero_iff.1 (by omega)
    subst this
    rw [hr] at ha; cases ha; rfl
  · obtain ⟨b, h1, h2⟩ := e3 (D - 1 - 1) (by omega)
    rw [show 0 + (D - 1 - 1) + 1 = p.length by omega, htk _ (Nat.le_refl _),
      List.take_length, ha] at h1
    cases h1
    have hne : qs ≠ [] := by intro e; rw [e] at e2; simp at e2; omega
    rw [List.getLast_cons hne]
    rw [List.getLast_eq_getElem]
    have h3 : qs[qs.length - 1]? = some (.heap a) := by rw [← h2]; congr 1; omega
    rw [List.getElem?_eq_getElem (by omega)] at h3
    simpa using h3

/-- `get_terminal_node` on any path. -/
theorem TInv.terminal_any (H : TInv D h root loc K) (hD : D ≤ 9) (hD1 : 1 ≤ D) {P : List Nat}
    (hP : ValidPath 64 P) (hl : P.length = D) :
    ∃ q i, getTerminalNode D h root P = .ok (q, i) ∧ WPos D loc (D - 1) q ∧
      i < 64 := by
  obtain ⟨qs, e1, e2, e3⟩ := H.branch_any hD hP (D - 1) 0 root (by omega) (by omega) H.wpos_root
  have hmap : (List.range (D - 1)).map (· + 0) = List.range (D - 1) := by simp
  rw [hmap] at e1
  have := terminalLoop_eq (List.range (D - 1)) root qs
    (fun n hn => by simp only [List.mem_range] at hn; omega) e1
  have hne : P ≠ [] := by intro e; rw [e] at hl; simp at hl; omega
  refine ⟨(root :: qs).getLast (by simp), P.getLast hne, ?_, ?_, hP _ (List.getLast_mem hne)⟩
  · unfold getTerminalNode
    rw [this, List.getLast?_eq_some_getLast hne]
    rfl
  · by_cases hz : D - 1 = 0
    · have : qs = [] := List.length_eq_zero_iff.1 (by omega)
      subst this
      rw [hz]; exact H.wpos_root
    · have hne' : qs ≠ [] := by intro e; rw [e] at e2; simp at e2; omega
      rw [List.getLast_cons hne', List.getLast_eq_getElem]
      have := e3 (qs.length - 1) qs[qs.length - 1] (List.getElem?_eq_getElem (by omega))
      rwa [show 0 + (qs.length - 1) + 1 = D - 1 by omega] at this

end Hibit.Dense
