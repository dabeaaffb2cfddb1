import Verif.Dense.MatAny
import Verif.Wrong
/-!
# Materialize: sources with arbitrary answers

Whatever a source answers, the construction only depends on the masks and data it received. A run over
an arbitrary source is repeated, step by step, by a run over a recorded source (`recI`) that answers
the same and is lawful; so that the theorems about lawful sources apply to the result.
-/
namespace Hibit.Dense
open Hibit

/-- The path selected by `select_level_node(n, i)` of a cursor that was at `c`. -/
def recPath (c : List Nat) (n i : Nat) : List Nat := if n = 0 then [] else c.take (n - 1) ++ [i]

/-- A recorded source: the mask of the node at each path, the data at each full path. -/
def recI {α : Type} (D : Nat) (B : List Nat → Word) (dat : List Nat → Option α) :
    Impl Unit (List Nat) α where
  N := 1
  D := D
  exact := false
  data _ _ li := .ok (dat li)
  dataU _ _ li := match dat li with | some d => .ok d | none => .error .panic
  new _ := .ok []
  select c _ n i := .ok ([B (recPath c n i)], recPath c n i)
  selectU c _ n i := .ok ([B (recPath c n i)], recPath c n i)
  curData c _ i := .ok (dat (c ++ [i]))
  curDataU c _ i := match dat (c ++ [i]) with | some d => .ok d | none => .error .panic

/-- A recorded source is consistent below the node `p`. -/
structure RecOut {α : Type} (D : Nat) (p : List Nat) (B : List Nat → Word)
    (dat : List Nat → Option α) : Prop where
  up : ∀ q i j, p <+: q → i < 64 → (B (q ++ [i])).getLsbD j = true → (B q).getLsbD i = true
  term : ∀ q i, p <+: q → q.length + 1 = D → i < 64 → (B q).getLsbD i = (dat (q ++ [i])).isSome

/-- Two recordings agree below `p`. -/
def Agree {α : Type} (p : List Nat) (B : List Nat → Word) (dat : List Nat → Option α)
    (B' : List Nat → Word) (dat' : List Nat → Option α) : Prop :=
  ∀ q, p <+: q → B' q = B q ∧ dat' q = dat q

/-- The state of a run over the recorded source. -/
def recState {C α : Type} (st : MSt C α) (c : List Nat) : MSt (List Nat) α :=
  ⟨st.heap, c, st.data, st.keys⟩

/-- The content of a recorded source. -/
def recM {α : Type} (D : Nat) (dat : List Nat → Option α) (k : Nat) : Option α := dat (path 64 D k)

/-- A one-word traversal, as a loop over all 64 positions. -/
theorem traverseM_range {σ : Type} (body : σ → Nat → R σ) (st : σ) (w : Word) :
    traverseM body st [w] = (List.range 64).foldlM
      (fun st i => if w.getLsbD i then body st i else .ok st) st := by
  rw [traverseM_eq]
  have e : Mask.ones [w] = (List.range 64).filter (fun i => w.getLsbD i) := by
    have := ones_cons w []
    rw [this]
    simp [Mask.ones, wones]
  rw [e, foldlM_filter]

theorem range_nub {σ : Type} {body : σ → Nat → R σ} {st : σ} {w : Word} (P : Nat → σ → Prop)
    (h0 : P 0 st)
    (hset : ∀ c st, c < 64 → w.getLsbD c = true → P c st → Nub tm (body st c) (P (c + 1)))
    (hclr : ∀ c st, c < 64 → w.getLsbD c = false → P c st → P (c + 1) st) :
    Nub tm (traverseM body st [w]) (P 64) := by
  rw [traverseM_range]
  have : ∀ n, n ≤ 64 → Nub tm ((List.range n).foldlM
      (fun st i => if w.getLsbD i then body st i else .ok st) st) (P n) := by
    intro n
    induction n with
    | zero => intro _; exact Nub.ok h0
    | succ n ih =>
      intro hn
      rw [List.range_succ, List.foldlM_append]
      refine (ih (by omega)).bind fun st1 h1 => ?_
      simp only [List.foldlM_cons, List.foldlM_nil]
      cases hb : w.getLsbD n with
      | true =>
        simp only [if_true]
        exact (hset n st1 (by omega) hb h1).bind fun st2 h2 => Nub.pure h2
      | false =>
        simp only [Bool.false_eq_true, if_false, bind_ok]
        exact Nub.pure (hclr n st1 (by omega) hb h1)
  exact this 64 (Nat.le_refl _)

/-- The first `n` steps of a one-word traversal. -/
def steps {σ : Type} (body : σ → Nat → R σ) (w : Word) (st : σ) (n : Nat) : R σ :=
  (List.range n).foldlM (fun st i => if w.getLsbD i then body st i else .ok st) st

theorem steps_zero {σ : Type} (body : σ → Nat → R σ) (w : Word) (st : σ) :
    steps body w st 0 = .ok st := rfl

theorem steps_set {σ : Type} {body : σ → Nat → R σ} {w : Word} {st st1 st2 : σ} {n : Nat}
    (h : steps body w st n = .ok st1) (hb : w.getLsbD n = true) (h2 : body st1 n = .ok st2) :
    steps body w st (n + 1) = .ok st2 := by
  unfold steps at *
  rw [List.range_succ, List.foldlM_append, h]
  simp [hb, h2]

theorem steps_clr {σ : Type} {body : σ → Nat → R σ} {w : Word} {st st1 : σ} {n : Nat}
    (h : steps body w st n = .ok st1) (hb : w.getLsbD n = false) :
    steps body w st (n + 1) = .ok st1 := by
  unfold steps at *
  rw [List.range_succ, List.foldlM_append, h]
  simp [hb]

/-- Bits of `w` below `c`. -/
def cnt (w : Word) (c : Nat) : Nat := (List.range c).countP fun i => w.getLsbD i

theorem cnt_set {w : Word} {c : Nat} (h : w.getLsbD c = true) : cnt w (c + 1) = cnt w c + 1 := by
  unfold cnt; rw [List.range_succ, List.countP_append]; simp [h]

theorem cnt_clr {w : Word} {c : Nat} (h : w.getLsbD c = false) : cnt w (c + 1) = cnt w c := by
  unfold cnt; rw [List.range_succ, List.countP_append]; simp [h]

theorem cnt_le (w : Word) {c : Nat} (hc : c ≤ 64) : cnt w c ≤ popcount w := by
  have : List.range 64 = List.range c ++ (List.range (64 - c)).map (c + ·) := by
    rw [← List.range_add]; congr 1; omega
  unfold cnt popcount
  rw [this, List.countP_append]
  omega

theorem cnt_le_self (w : Word) (c : Nat) : cnt w c ≤ c := by
  unfold cnt
  have := List.countP_le_length (p := fun i => w.getLsbD i) (l := List.range c)
  simpa using this

theorem cnt_full (w : Word) : cnt w 64 = popcount w := rfl

section
variable {S C α : Type} {I : Impl S C α} {s : S} {h : Bool} {ok : C → List Mask → Bool → Prop}

theorem path_child {D : Nat} {p : List Nat} {n r : Nat} (hv : ValidPath 64 p) (hl : p.length + n = D)
    (hr : r < 64 ^ n) : path 64 D (unpath 64 p * 64 ^ n + r) = p ++ path 64 n r := by
  have hv' : ValidPath 64 (p ++ path 64 n r) := by
    intro x hx
    rcases List.mem_append.1 hx with h | h
    · exact hv x h
    · exact path_lt n hr x h
  have := path_unpath hv'
  rw [unpath_append, path_length, unpath_path 64 n r hr, List.length_append, path_length, hl] at this
  exact this

/-- The loop of from.rs:40-48 over a source with arbitrary answers. -/
theorem makeTerminal_rec (hk : SturdyBy tm true h I s ok) (hN : I.N = 1) (h9 : I.D ≤ 9) {p : List Nat}
    {st : MSt C α} {w : Word} {ms : List Mask} {b : Bool} (hv : ValidPath 64 p)
    (hl : p.length + 1 = I.D) (hc : ok st.cur ms b) (hms : ms.length = I.D)
    (hw : ms[I.D - 1]? = some [w]) (hf : ∀ a, st.heap.next ≤ a → st.heap.node a = none) :
    Nub tm (makeTerminalNode I s st w (popcount w + 1) (unpath 64 p * 64)) (fun r =>
      r.1.cur = st.cur ∧ (∀ a, a < st.heap.next → r.1.heap.node a = st.heap.node a) ∧
      st.heap.next ≤ r.1.heap.next ∧ (∀ a, r.1.heap.next ≤ a → r.1.heap.node a = none) ∧
      ∃ v : Nat → Option α, (∀ i, i < 64 → w.getLsbD i = (v i).isSome) ∧ (∀ i, 64 ≤ i → v i = none) ∧
        ∀ B' dat', (∀ i, i < 64 → dat' (p ++ [i]) = v i) →
          makeTerminalNode (recI I.D B' dat') () (recState st p) w (popcount w + 1)
            (unpath 64 p * 64) = .ok (recState r.1 p, r.2) ∧
          (DataAt (recM I.D dat') st (unpath 64 p * 64) →
            DataAt (recM I.D dat') r.1 (unpath 64 p * 64 + 64))) := by
  have hW : width I.N = 64 := by rw [hN]; rfl
  have hpop := popcount_le w
  have hle := unpath_lt_pow (n := 1) hv hl
  simp only [Nat.pow_one] at hle
  have hD9 := pow_lt_usize h9
  have hbit : ∀ i, i < 64 → w.getLsbD i = true → ∀ (m : Mask), ms[I.D - 1]? = some m → m.bit i = true := by
    intro i hi hb m hm
    rw [hw] at hm
    cases hm
    simp [Mask.bit, Nat.mod_eq_of_lt hi, show i / 64 = 0 by omega, hb]
  let st0 : MSt C α := { st with heap := ⟨upd st.heap.node st.heap.next
      (some (openNode .term w (popcount w + 1) [])), st.heap.next + 1⟩ }
  let P : Nat → MSt C α → Prop := fun c st' =>
    st'.cur = st.cur ∧
    (∀ a, a < st.heap.next → st'.heap.node a = st.heap.node a) ∧
    st'.heap.next = st.heap.next + 1 ∧
    (∀ a, st.heap.next + 1 ≤ a → st'.heap.node a = none) ∧
    (∃ l, l.length = cnt w c ∧
      st'.heap.node st.heap.next = some (openNode .term w (popcount w + 1) l)) ∧
    ∃ v : Nat → Option α, (∀ i, i < c → w.getLsbD i = (v i).isSome) ∧ (∀ i, c ≤ i → v i = none) ∧
      ∀ B' dat', (∀ i, i < c → dat' (p ++ [i]) = v i) →
        steps (terminalBody (recI I.D B' dat') () st.heap.next (unpath 64 p * 64)) w (recState st0 p) c =
          .ok (recState st' p) ∧
        (DataAt (recM I.D dat') st (unpath 64 p * 64) →
          DataAt (recM I.D dat') st' (unpath 64 p * 64 + c))
  have hrm : ∀ (dat' : List Nat → Option α) c, c < 64 →
      recM I.D dat' (unpath 64 p * 64 + c) = dat' (p ++ [c]) := by
    intro dat' c hc
    have := path_child (n := 1) (r := c) hv hl (by simpa using hc)
    unfold recM
    simp only [Nat.pow_one] at this
    rw [this]
    simp [path, Nat.mod_eq_of_lt hc]
  have hloop : Nub tm (traverseM (terminalBody I s st.heap.next (unpath 64 p * 64)) st0 [w]) (P 64) := by
    refine range_nub P ?_ ?_ ?_
    · refine ⟨rfl, fun a ha => upd_ne _ _ (by omega), rfl,
        fun a ha => (upd_ne _ _ (by omega)).trans (hf a (by omega)), ⟨[], rfl, by simp [st0]⟩,
        fun _ => none, fun i hi => by omega, fun _ _ => rfl, fun B' dat' _ => ⟨steps_zero _ _ _, fun hd => hd⟩⟩
    · rintro c st1 hc' hb ⟨q1, q2, q3, q4, ⟨l, q5, q6⟩, v, q7, q8, q9⟩
      unfold terminalBody
      have hcd : Nub tm (I.curDataU st1.cur s c) (fun _ => True) := by
        rw [q1]
        exact hk.curDataU rfl st.cur ms b c hc hms (by rw [hW]; exact hc') (hbit c hc' hb)
      refine hcd.bind fun d _ => ?_
      simp only [addUsize]
      rw [if_pos (by omega)]
      simp only [bind_ok, pushData]
      have hlt := cnt_le w (show c + 1 ≤ 64 by omega)
      rw [cnt_set hb] at hlt
      rw [rawPush_open q6 (by omega) (by omega)]
      refine Nub.ok ⟨q1, ?_, q3, ?_, ⟨l ++ [.idx (st1.data.length % 2 ^ 32)], ?_, ?_⟩, upd v c (some d), ?_, ?_, ?_⟩
      · intro a ha
        simp only [Heap.put]
        rw [upd_ne _ _ (by omega)]; exact q2 a ha
      · intro a ha
        simp only [Heap.put]
        rw [upd_ne _ _ (by omega)]; exact q4 a ha
      · rw [cnt_set hb, List.length_append, q5]; rfl
      · simp [Heap.put]
      · intro i hi
        by_cases e : i = c
        · subst e; simp [hb]
        · rw [upd_ne _ _ e]; exact q7 i (by omega)
      · intro i hi
        rw [upd_ne _ _ (by omega)]; exact q8 i (by omega)
      · intro B' dat' hag
        have hag0 : ∀ i, i < c → dat' (p ++ [i]) = v i := by
          intro i hi
          rw [hag i (by omega), upd_ne _ _ (by omega)]
        have hdc : dat' (p ++ [c]) = some d := by rw [hag c (by omega), upd_same]
        obtain ⟨g1, g2⟩ := q9 B' dat' hag0
        refine ⟨steps_set g1 hb ?_, fun hd => ?_⟩
        · unfold terminalBody
          simp only [recI, recState, hdc, addUsize]
          rw [if_pos (by omega)]
          simp only [bind_ok, pushData]
          rw [rawPush_open q6 (by omega) (by omega)]
          rfl
        · obtain ⟨g3, g4⟩ := g2 hd
          unfold DataAt
          simp only
          rw [← Nat.add_assoc, valuesOf_succ, keysOf_succ, hrm dat' c hc', hdc, g3, g4]
          simp
    · rintro c st1 hc' hb ⟨q1, q2, q3, q4, ⟨l, q5, q6⟩, v, q7, q8, q9⟩
      refine ⟨q1, q2, q3, q4, ⟨l, by rw [cnt_clr hb]; exact q5, q6⟩, v, ?_, ?_, ?_⟩
      · intro i hi
        by_cases e : i = c
        · subst e; rw [hb, q8 i (Nat.le_refl _)]; rfl
        · exact q7 i (by omega)
      · intro i hi; exact q8 i (by omega)
      · intro B' dat' hag
        obtain ⟨g1, g2⟩ := q9 B' dat' (fun i hi => hag i (by omega))
        refine ⟨steps_clr g1 hb, fun hd => ?_⟩
        rw [← Nat.add_assoc]
        refine (g2 hd).gap (n := 1) (fun r hr => ?_)
        rw [show r = 0 by omega, Nat.add_zero, hrm dat' c hc', hag c (by omega), q8 c (Nat.le_refl _)]
  unfold makeTerminalNode
  rw [rawNew_eq]
  simp only [Heap.alloc]
  refine hloop.bind ?_
  rintro st' ⟨q1, q2, q3, q4, ⟨l, q5, q6⟩, v, q7, q8, q9⟩
  rw [cnt_full] at q5
  rw [rawFinalize_open q6 (by omega) (by omega)]
  simp only [bind_ok]
  refine Nub.ok ⟨q1, ?_, ?_, ?_, v, q7, q8, ?_⟩
  · intro a ha
    simp only [Heap.put]
    rw [upd_ne _ _ (by omega)]; exact q2 a ha
  · simp only [Heap.put]; omega
  · intro a ha
    simp only [Heap.put] at ha ⊢
    rw [upd_ne _ _ (by omega)]; exact q4 a (by omega)
  · intro B' dat' hag
    obtain ⟨g1, g2⟩ := q9 B' dat' hag
    refine ⟨?_, g2⟩
    simp only [rawNew_eq, Heap.alloc]
    have e : traverseM (terminalBody (recI I.D B' dat') () st.heap.next (unpath 64 p * 64))
        (recState st0 p) [w] = .ok (recState st' p) := by
      rw [traverseM_range]; exact g1
    show (traverseM (terminalBody (recI I.D B' dat') () st.heap.next (unpath 64 p * 64))
        (recState st0 p) [w] >>= _) = _
    rw [e, bind_ok]
    simp only [recState]
    rw [rawFinalize_open q6 (by omega) (by omega)]
    rfl

/-! ### Branch nodes -/

/-- The recording of a branch node whose children below position `c` have been recorded. -/
def RecPart (D : Nat) (p : List Nat) (w : Word) (c : Nat) (B : List Nat → Word)
    (dat : List Nat → Option α) : Prop :=
  ∀ i, (i < c → w.getLsbD i = true → RecOut D (p ++ [i]) B dat) ∧
    ((i < c → w.getLsbD i = false) → ∀ q, (p ++ [i]) <+: q → B q = 0 ∧ dat q = none)

/-- The two recordings agree on the children below `c`. -/
def AgreeC (p : List Nat) (c : Nat) (B : List Nat → Word) (dat : List Nat → Option α)
    (B' : List Nat → Word) (dat' : List Nat → Option α) : Prop :=
  ∀ i, i < c → Agree (p ++ [i]) B dat B' dat'

theorem RecOut.of_agree {D : Nat} {p : List Nat} {B B' : List Nat → Word}
    {dat dat' : List Nat → Option α} (ho : RecOut D p B dat) (ha : Agree p B dat B' dat') :
    RecOut D p B' dat' where
  up q i j hq hi hb := by
    rw [(ha q hq).1]
    rw [(ha (q ++ [i]) (hq.trans (List.prefix_append q [i]))).1] at hb
    exact ho.up q i j hq hi hb
  term q i hq hl hi := by
    rw [(ha q hq).1, (ha (q ++ [i]) (hq.trans (List.prefix_append q [i]))).2]
    exact ho.term q i hq hl hi

theorem RecPart.init (D : Nat) (p : List Nat) (w : Word) :
    RecPart D p w 0 (fun _ => 0) (fun _ => (none : Option α)) :=
  fun _ => ⟨fun h => by omega, fun _ _ _ => ⟨rfl, rfl⟩⟩

/-- Recording joined with that of the child `c`. -/
def joinRec {β : Type} (r : List Nat) (f g : List Nat → β) : List Nat → β := fun q =>
  if r <+: q then g q else f q

theorem agree_join (p : List Nat) (c : Nat) (B B2 : List Nat → Word)
    (dat dat2 : List Nat → Option α) :
    Agree (p ++ [c]) B2 dat2 (joinRec (p ++ [c]) B B2) (joinRec (p ++ [c]) dat dat2) ∧
    ∀ i, i ≠ c → Agree (p ++ [i]) B dat (joinRec (p ++ [c]) B B2) (joinRec (p ++ [c]) dat dat2) := by
  constructor
  · intro q hq
    unfold joinRec
    rw [if_pos hq, if_pos hq]
    exact ⟨rfl, rfl⟩
  · intro i hi q hq
    unfold joinRec
    have : ¬ (p ++ [c]) <+: q := fun hx => hi (snoc_prefix_unique hq hx)
    rw [if_neg this, if_neg this]
    exact ⟨rfl, rfl⟩

theorem RecPart.join {D : Nat} {p : List Nat} {w : Word} {c : Nat} {B B2 : List Nat → Word}
    {dat dat2 : List Nat → Option α} (hp : RecPart D p w c B dat) (hb : w.getLsbD c = true)
    (h2 : RecOut D (p ++ [c]) B2 dat2) :
    RecPart D p w (c + 1) (joinRec (p ++ [c]) B B2) (joinRec (p ++ [c]) dat dat2) := by
  obtain ⟨a1, a2⟩ := agree_join p c B B2 dat dat2
  intro i
  by_cases e : i = c
  · subst e
    refine ⟨fun _ _ => h2.of_agree a1, fun h => ?_⟩
    have := h (by omega)
    rw [hb] at this; cases this
  · refine ⟨fun hi hw => ((hp i).1 (by omega) hw).of_agree (a2 i e), fun h q hq => ?_⟩
    rw [(a2 i e q hq).1, (a2 i e q hq).2]
    exact (hp i).2 (fun hi => h (by omega)) q hq

theorem RecPart.skip {D : Nat} {p : List Nat} {w : Word} {c : Nat} {B : List Nat → Word}
    {dat : List Nat → Option α} (hp : RecPart D p w c B dat) (hb : w.getLsbD c = false) :
    RecPart D p w (c + 1) B dat := by
  intro i
  by_cases e : i = c
  · subst e
    refine ⟨(fun _ hw => by rw [hb] at hw; cases hw), fun _ => (hp i).2 (fun _ => hb)⟩
  · exact ⟨fun hi => (hp i).1 (by omega), fun h => (hp i).2 (fun hi => h (by omega))⟩

theorem ne_of_snoc {p q : List Nat} {i : Nat} (hq : (p ++ [i]) <+: q) : q ≠ p :=
  (snoc_prefix_ne hq).2

/-- The finished node. -/
theorem RecPart.close {D : Nat} {p : List Nat} {w : Word} {B : List Nat → Word}
    {dat : List Nat → Option α} (hp : RecPart D p w 64 B dat) (hl : p.length + 1 < D) :
    RecOut D p (upd B p w) dat := by
  have hu : ∀ q i, (p ++ [i]) <+: q → upd B p w q = B q := fun q i hq => upd_ne _ _ (ne_of_snoc hq)
  constructor
  · intro q i j hq hi hb
    rcases prefix_cases hq with rfl | ⟨k, hk⟩
    · rw [upd_same]
      rw [hu _ i (List.prefix_refl _)] at hb
      cases hw : w.getLsbD i with
      | true => rfl
      | false =>
        have := ((hp i).2 (fun _ => hw) _ (List.prefix_refl _)).1
        rw [this] at hb
        simp at hb
    · have hk' := hk.trans (List.prefix_append q [i])
      rw [hu _ k hk'] at hb
      rw [hu _ k hk]
      by_cases hw : k < 64 ∧ w.getLsbD k = true
      · exact ((hp k).1 hw.1 hw.2).up q i j hk hi hb
      · have := ((hp k).2 (fun h1 => by
          cases h2 : w.getLsbD k with
          | true => exact absurd ⟨h1, h2⟩ hw
          | false => rfl) _ hk').1
        rw [this] at hb
        simp at hb
  · intro q i hq hql hi
    rcases prefix_cases hq with rfl | ⟨k, hk⟩
    · omega
    · rw [hu _ k hk]
      by_cases hw : k < 64 ∧ w.getLsbD k = true
      · exact ((hp k).1 hw.1 hw.2).term q i hk hql hi
      · have h3 := (hp k).2 (fun h1 => by
          cases h2 : w.getLsbD k with
          | true => exact absurd ⟨h1, h2⟩ hw
          | false => rfl)
        rw [(h3 _ hk).1, (h3 _ (hk.trans (List.prefix_append q [i]))).2]
        simp

/-- The terminal node of recorded answers. -/
theorem recOut_term {D : Nat} {p : List Nat} {w : Word} {v : Nat → Option α} (hl : p.length + 1 = D)
    (hv : ∀ i, i < 64 → w.getLsbD i = (v i).isSome) :
    RecOut D p (upd (fun _ => 0) p w)
      (fun q => if (q.dropLast = p) then v (q.getLastD 64) else none) := by
  constructor
  · intro q i j hq hi hb
    rw [upd_ne] at hb
    · simp at hb
    · intro e
      have := hq.length_le
      rw [← e] at this
      simp at this
      omega
  · intro q i hq hql hi
    have e : q = p := (hq.eq_of_length (by omega)).symm
    subst e
    rw [upd_same, hv i hi]
    simp

/-- What a run of the construction over a source with arbitrary answers leaves. -/
def RecPost {β : Type} (I : Impl S C α) (ok : C → List Mask → Bool → Prop) (p : List Nat)
    (index e size : Nat) (ms : List Mask) (st : MSt C α)
    (run : (List Nat → Word) → (List Nat → Option α) → List Nat → R (MSt (List Nat) α × β))
    (r : MSt C α × β) : Prop :=
  (∀ a, a < st.heap.next → r.1.heap.node a = st.heap.node a) ∧
  st.heap.next ≤ r.1.heap.next ∧ (∀ a, r.1.heap.next ≤ a → r.1.heap.node a = none) ∧
  (∃ ms' b', ok r.1.cur ms' b' ∧ p.length ≤ ms'.length ∧ ms'.take p.length = ms.take p.length) ∧
  ∃ B dat, RecOut I.D p B dat ∧ ∀ B' dat', Agree p B dat B' dat' →
    (∀ c, recPath c p.length index = p → ∃ c', run B' dat' c = .ok (recState r.1 c', r.2) ∧
      c'.take p.length = p) ∧
    (DataAt (recM I.D dat') st e → DataAt (recM I.D dat') r.1 (e + size))

/-- The cursor may select node `p` at `index`: it is announced by the mask above. -/
def EntryW (ok : C → List Mask → Bool → Prop) (p : List Nat) (index : Nat) (ms : List Mask) (b : Bool)
    (c : C) : Prop :=
  ok c ms b ∧ p.length ≤ ms.length ∧ index < 64 ∧ (p.length = 0 → index = 0) ∧
    ∀ (m : Mask), 0 < p.length → ms[p.length - 1]? = some m → m.bit index = true

theorem selectU_rec (hk : SturdyBy tm true h I s ok) (hN : I.N = 1) {p : List Nat} {index : Nat}
    {ms : List Mask} {b : Bool} {c : C} (hl : p.length < I.D) (he : EntryW ok p index ms b c) :
    Nub tm (I.selectU c s p.length index) (fun r => ∃ w, r.1 = [w] ∧ ok r.2 (ms.take p.length ++ [[w]]) false) := by
  obtain ⟨h1, h2, h3, h4, h5⟩ := he
  refine (hk.selectU c ms b p.length index h1 h2 hl (by rw [hN]; exact h3) h4 h5).imp ?_
  rintro ⟨m, c'⟩ ⟨g1, g2⟩
  rw [hN] at g1
  match m, g1, g2 with
  | [w], _, g2 => exact ⟨w, rfl, g2⟩

theorem bit_word {w : Word} {i : Nat} (hi : i < 64) : Mask.bit [w] i = w.getLsbD i := by
  simp [Mask.bit, Nat.mod_eq_of_lt hi, show i / 64 = 0 by omega]

/-- The terminal step of `from_exact_sparse_hierarchy` and `from_sparse_hierarchy`. -/
theorem terminal_rec (hk : SturdyBy tm true h I s ok) (hN : I.N = 1) (h9 : I.D ≤ 9) {p : List Nat}
    {index : Nat} {st : MSt C α} {ms : List Mask} {b : Bool} (hv : ValidPath 64 p)
    (hl : p.length + 1 = I.D) (he : EntryW ok p index ms b st.cur)
    (hf : ∀ a, st.heap.next ≤ a → st.heap.node a = none) :
    Nub tm (do
      let (m, c) ← I.selectU st.cur s (I.D - 1) index
      let mask ← Hibit.getU m 0
      let cap ← capOf mask
      makeTerminalNode I s { st with cur := c } mask cap (unpath 64 p * 64))
      (RecPost I ok p index (unpath 64 p * 64) 64 ms st fun B' dat' c => do
        let (m, c) ← (recI I.D B' dat').selectU c () (I.D - 1) index
        let mask ← Hibit.getU m 0
        let cap ← capOf mask
        makeTerminalNode (recI I.D B' dat') () { recState st c with cur := c } mask cap
          (unpath 64 p * 64)) := by
  have hlen : I.D - 1 = p.length := by omega
  rw [hlen]
  refine (selectU_rec hk hN (by omega) he).bind ?_
  rintro ⟨m, c⟩ ⟨w, rfl, hok⟩
  simp only [Hibit.getU, List.getElem?_cons_zero, bind_ok, capOf_eq]
  have h2 := he.2.1
  refine (makeTerminal_rec hk hN h9 (st := { st with cur := c }) hv hl hok
    (by simp; omega) (by rw [hlen, List.getElem?_append_right (by simp; omega)]; simp [Nat.min_eq_left h2])
    hf).imp ?_
  rintro ⟨st', a⟩ ⟨q1, q2, q3, q4, v, q5, q6, q7⟩
  refine ⟨q2, q3, q4, ⟨_, _, by rw [q1]; exact hok, by
    rw [List.length_append, List.length_take]; show _ ≤ min p.length ms.length + 1; omega, by
    rw [List.take_append_of_le_length (by rw [List.length_take]; omega), List.take_take,
      Nat.min_self]⟩, _, _, recOut_term hl q5, ?_⟩
  intro B' dat' hag
  have hag1 : ∀ i, i < 64 → dat' (p ++ [i]) = v i := by
    intro i _
    rw [(hag (p ++ [i]) (List.prefix_append p [i])).2]
    simp
  obtain ⟨g1, g2⟩ := q7 B' dat' hag1
  refine ⟨fun c0 hc0 => ⟨p, ?_, by simp⟩, g2⟩
  have hB : B' p = w := by rw [(hag p (List.prefix_refl p)).1, upd_same]
  show (Except.ok ([B' (recPath c0 p.length index)], recPath c0 p.length index) >>= _) = _
  rw [hc0, hB]
  simp only [bind_ok, List.getElem?_cons_zero]
  exact g1

end

end Hibit.Dense
