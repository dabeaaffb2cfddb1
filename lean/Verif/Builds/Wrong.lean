import Verif.Builds.Mat
import Verif.Dense.MatRec2
import Verif.WrongMulti
/-!
# Every build, over sources with arbitrary answers

The checks that distinguish the builds never fire, whatever a source answers: so that a lookup, an iteration and
`materialize` do exactly the same in every build, also where they panic because a method of the source did.
-/
namespace Hibit

namespace Build
variable {B : Build}

section
variable {S C δ : Type} {I : Impl S C δ} {s : S} {u h tm : Bool}

/-- A lookup in any build. -/
theorem get_same (hs : Sturdy tm u h I s) (k : Nat) : B.get I s k = I.get s k := by
  obtain ⟨ok, hk⟩ := hs
  unfold Build.get Impl.get
  cases e : indexFrom I.N I.D k with
  | error x => rfl
  | ok i =>
    simp only [bind_ok]
    have e1 := levelIndices_eq hk.cfg (i := i)
    rw [e1, B.levelIndices_le _ _ _ _ e1]

/-- `next()` in any build. -/
theorem iterTake_same {ok : C → List Mask → Bool → Prop} (hk : SturdyBy false u h I s ok) (fuel : Nat) : ∀ (n : Nat)
    (st : IterSt C) (ms : List Mask) (b : Bool), WIt I ok st ms b →
    B.iterTake I s fuel n st = I.iterTake s fuel n st := by
  intro n
  induction n with
  | zero => intros; rfl
  | succ n ih =>
    intro st ms b hw
    have hl := wit_loop hk fuel st ms b hw (fun e => by cases e)
    have hsame : B.iterNext I s fuel st = I.iterNext s fuel st := by
      unfold Build.iterNext Impl.iterNext
      cases el : I.iterLoop s fuel st with
      | error x => rfl
      | ok r =>
        obtain ⟨o, st'⟩ := r
        obtain ⟨-, ms', b', hw', -, hi⟩ := hl.2 _ el
        cases o with
        | none => rfl
        | some i =>
          obtain ⟨h1, h2, -, -⟩ := hi i rfl
          have hD := hk.cfg.depth
          have hpv := hw'.pval
          have hll := hw'.lidx
          simp only at hpv hll
          rw [List.take_of_length_le (by omega)] at hpv
          have e1 := dataBlockIndex_eq hk.cfg (q := st'.lidx) (by omega) hpv h2
            (List.take_of_length_le (Nat.le_refl _))
          simp only [bind_ok]
          rw [e1, B.dataBlockIndex_le _ _ _ _ _ e1]
    rw [Build.iterTake, Impl.iterTake, hsame]
    cases e : I.iterNext s fuel st with
    | error x => rfl
    | ok r =>
      have hw2 : ∃ ms' b', WIt I ok r.2 ms' b' := by
        unfold Impl.iterNext at e
        obtain ⟨⟨o, st'⟩, el, e⟩ := bind_inv e
        obtain ⟨-, ms', b', hw', -, -⟩ := hl.2 _ el
        cases o with
        | none => cases e; exact ⟨ms', b', hw'⟩
        | some i =>
          obtain ⟨d, -, e⟩ := bind_inv e
          obtain ⟨idx, -, e⟩ := bind_inv e
          cases e
          exact ⟨ms', b', hw'⟩
      obtain ⟨o, st'⟩ := r
      obtain ⟨ms', b', hw'⟩ := hw2
      simp only [bind_ok]
      rw [ih st' ms' b' hw']

/-- An iteration in any build. -/
theorem iterRun_same (hs : Sturdy tm u h I s) (fuel n : Nat) : B.iterRun I s fuel n = I.iterRun s fuel n := by
  obtain ⟨ok, hk⟩ := hs.forget
  unfold Build.iterRun Impl.iterRun
  cases e : I.iterNew s with
  | error x => rfl
  | ok st =>
    obtain ⟨⟨ms, b, hw⟩, -⟩ := (wit_new hk).2 _ e
    simp only [bind_ok]
    exact iterTake_same hk fuel n st ms b hw

/-- `multi_intersection` in any build. -/
theorem multiInter_sturdy (hcfg : ValidCfg I.N I.D) {ss : List S} (hs : ∀ s ∈ ss, Sturdy tm true h I s) :
    Sturdy tm true true (B.multiInterImpl I) ss := by
  have hk := Hibit.multiInter_sturdyBy hcfg hs
  refine ⟨_, hcfg, hk.len, hk.data, hk.create, hk.select, hk.selectU, ?_, hk.curDataU⟩
  intro c ms i hc hl hi
  have e : (B.multiInterImpl I).curData c ss i = (Hibit.multiInterImpl I).curData c ss i := by
    have e1 := getBit_eq c.terminalMask (k := i) (by rw [hc.term]; exact hi)
    show (B.getBit c.terminalMask i >>= _) = (Hibit.getBit c.terminalMask i >>= _)
    rw [e1, B.getBit_le _ _ _ e1]
  rw [e]
  exact hk.curData c ms i hc hl hi

end
end Build

namespace Build.Dense
open Hibit.Dense
variable {B : Build}

theorem traverse_same {σ : Type} {body body' : σ → Nat → R σ} {st : σ} {w : Word} (P : Nat → σ → Prop)
    (h0 : P 0 st)
    (hset : ∀ c st, c < 64 → w.getLsbD c = true → P c st →
      body' st c = body st c ∧ ∀ st', body st c = .ok st' → P (c + 1) st')
    (hclr : ∀ c st, c < 64 → w.getLsbD c = false → P c st → P (c + 1) st) :
    traverseM body' st [w] = traverseM body st [w] ∧ ∀ st', traverseM body st [w] = .ok st' → P 64 st' := by
  rw [traverseM_range, traverseM_range]
  have : ∀ n, n ≤ 64 → ((List.range n).foldlM (fun st i => if w.getLsbD i then body' st i else .ok st) st =
      (List.range n).foldlM (fun st i => if w.getLsbD i then body st i else .ok st) st) ∧
      ∀ st', (List.range n).foldlM (fun st i => if w.getLsbD i then body st i else .ok st) st = .ok st' → P n st' := by
    intro n
    induction n with
    | zero => intro _; exact ⟨rfl, fun st' e => by cases e; exact h0⟩
    | succ n ih =>
      intro hn
      obtain ⟨i1, i2⟩ := ih (by omega)
      rw [List.range_succ, List.foldlM_append, List.foldlM_append, i1]
      cases e : (List.range n).foldlM (fun st i => if w.getLsbD i then body st i else .ok st) st with
      | error x => exact ⟨rfl, fun _ h => by cases h⟩
      | ok st1 =>
        have hp := i2 st1 e
        simp only [bind_ok, List.foldlM_cons, List.foldlM_nil]
        cases hb : w.getLsbD n with
        | true =>
          obtain ⟨g1, g2⟩ := hset n st1 (by omega) hb hp
          simp only [if_true]
          refine ⟨by rw [g1], fun st' e' => ?_⟩
          obtain ⟨st2, e2, e3⟩ := bind_inv e'
          cases e3
          exact g2 _ e2
        | false =>
          simp only [Bool.false_eq_true, if_false, bind_ok]
          exact ⟨trivial, fun st' e' => by cases e'; exact hclr n st1 (by omega) hb hp⟩
  exact this 64 (Nat.le_refl _)

section
variable {S C α : Type} {I : Impl S C α} {s : S} {h tm : Bool} {ok : C → List Mask → Bool → Prop}

theorem makeTerminal_same {D : Nat} (h9 : D ≤ 9) {p : List Nat} {st : MSt C α} {w : Word} (hv : ValidPath 64 p)
    (hl : p.length + 1 = D) :
    makeTerminalNode B I s st w (popcount w + 1) (unpath 64 p * 64) =
      Hibit.Dense.makeTerminalNode I s st w (popcount w + 1) (unpath 64 p * 64) := by
  have hpop := popcount_le w
  have hle := unpath_lt_pow (n := 1) hv hl
  simp only [Nat.pow_one] at hle
  have hD9 := pow_lt_usize h9
  unfold makeTerminalNode Hibit.Dense.makeTerminalNode
  rw [rawNew_eq]
  simp only [Heap.alloc]
  obtain ⟨g1, g2⟩ := traverse_same (body' := terminalBody B I s st.heap.next (unpath 64 p * 64))
    (body := Hibit.Dense.terminalBody I s st.heap.next (unpath 64 p * 64))
    (st := { st with heap := ⟨upd st.heap.node st.heap.next
      (some (openNode .term w (popcount w + 1) [])), st.heap.next + 1⟩ }) (w := w)
    (fun c st' => ∃ l, l.length = cnt w c ∧
      st'.heap.node st.heap.next = some (openNode .term w (popcount w + 1) l))
    ⟨[], rfl, by simp⟩ (by
      rintro c st1 hc hb ⟨l, q1, q2⟩
      unfold terminalBody Hibit.Dense.terminalBody
      have hlt := cnt_le w (show c + 1 ≤ 64 by omega)
      rw [cnt_set hb] at hlt
      cases e : I.curDataU st1.cur s c with
      | error x => exact ⟨rfl, fun _ e => by cases e⟩
      | ok d =>
        have ha : addUsize (unpath 64 p * 64) c = .ok (unpath 64 p * 64 + c) := by
          unfold addUsize; rw [if_pos (by omega)]
        simp only [bind_ok, ha, addUsize_le (B := B) _ _ _ ha, pushData]
        have hp := rawPush_open q2 (by omega) (by omega) (.idx (st1.data.length % 2 ^ 32))
        rw [hp, rawPush_le (B := B) _ _ _ _ _ hp]
        refine ⟨rfl, fun st' e' => ?_⟩
        cases e'
        exact ⟨l ++ [.idx (st1.data.length % 2 ^ 32)], by rw [cnt_set hb, List.length_append, q1]; rfl,
          by simp [Heap.put]⟩)
    (by
      rintro c st1 hc hb ⟨l, q1, q2⟩
      exact ⟨l, by rw [cnt_clr hb]; exact q1, q2⟩)
  rw [g1]
  generalize hx : traverseM (Hibit.Dense.terminalBody I s st.heap.next (unpath 64 p * 64))
    { st with heap := ⟨upd st.heap.node st.heap.next
      (some (openNode .term w (popcount w + 1) [])), st.heap.next + 1⟩ } [w] = x at g2
  cases x with
  | error x => rfl
  | ok st' =>
    obtain ⟨l, q1, q2⟩ := g2 _ rfl
    rw [cnt_full] at q1
    have hf := rawFinalize_open q2 (by omega) (by omega) (.idx 0)
    simp only [bind_ok]
    rw [hf, rawFinalize_le (B := B) _ _ _ _ _ hf]

theorem terminal_same (hk : SturdyBy tm true h I s ok) (hN : I.N = 1) (h9 : I.D ≤ 9) {p : List Nat}
    {index : Nat} {st : MSt C α} {ms : List Mask} {b : Bool} (hv : ValidPath 64 p)
    (hl : p.length + 1 = I.D) (he : EntryW ok p index ms b st.cur) :
    (do
      let (m, c) ← I.selectU st.cur s (I.D - 1) index
      let mask ← Hibit.getU m 0
      let cap ← capOf B mask
      makeTerminalNode B I s { st with cur := c } mask cap (unpath 64 p * 64)) =
    (do
      let (m, c) ← I.selectU st.cur s (I.D - 1) index
      let mask ← Hibit.getU m 0
      let cap ← Hibit.Dense.capOf mask
      Hibit.Dense.makeTerminalNode I s { st with cur := c } mask cap (unpath 64 p * 64)) := by
  have hlen : I.D - 1 = p.length := by omega
  rw [hlen]
  have hsel := selectU_rec hk hN (by omega) he
  cases e : I.selectU st.cur s p.length index with
  | error x => rfl
  | ok r =>
    obtain ⟨w, e1, -⟩ := hsel.2 _ e
    obtain ⟨m, c⟩ := r
    simp only at e1
    subst e1
    simp only [Hibit.getU, List.getElem?_cons_zero, bind_ok, capOf_eq, capOf_le (B := B) _ _ (capOf_eq w)]
    exact makeTerminal_same h9 hv hl

/-- from.rs:53-94 in any build. -/
theorem fromExact_same (hk : SturdyBy tm true h I s ok) (hN : I.N = 1) (h9 : I.D ≤ 9)
    (hex : I.exact = true) : ∀ (left : Nat) (p : List Nat) (index : Nat) (st : MSt C α)
      (ms : List Mask) (b : Bool), p.length + left + 1 = I.D → ValidPath 64 p →
      EntryW ok p index ms b st.cur → (∀ a, st.heap.next ≤ a → st.heap.node a = none) →
      fromExact B I s left st index (unpath 64 p * 64 ^ (left + 1)) =
        Hibit.Dense.fromExact I s left st index (unpath 64 p * 64 ^ (left + 1)) := by
  intro left
  induction left with
  | zero =>
    intro p index st ms b hl hv he hf
    simp only [Nat.zero_add, Nat.pow_one]
    unfold fromExact Hibit.Dense.fromExact
    rw [if_pos hex, if_pos hex]
    exact terminal_same hk hN h9 hv hl he
  | succ left ih =>
    intro p index st ms b hl hv he hf
    have hn : I.D - 1 - (left + 1) = p.length := by omega
    have hD9 := pow_lt_usize h9
    have hblk : ∀ c, unpath 64 p * 64 ^ (left + 2) + c * 64 ^ (left + 1) =
        unpath 64 (p ++ [c]) * 64 ^ (left + 1) := by
      intro c
      rw [unpath_snoc, Nat.add_mul, Nat.pow_succ 64 (left + 1), Nat.mul_assoc,
        Nat.mul_comm 64 (64 ^ (left + 1))]
    unfold fromExact Hibit.Dense.fromExact
    rw [if_pos hex, if_pos hex]
    simp only
    rw [hn]
    have hsel := selectU_rec hk hN (by omega) he
    cases e : I.selectU st.cur s p.length index with
    | error x => rfl
    | ok r =>
    obtain ⟨w, e1, hok⟩ := hsel.2 _ e
    obtain ⟨m, c0⟩ := r
    simp only at e1 hok
    subst e1
    simp only [Hibit.getU, List.getElem?_cons_zero, bind_ok, capOf_eq, capOf_le (B := B) _ _ (capOf_eq w), rawNew_eq,
      Heap.alloc]
    have hpop := popcount_le w
    have h2 := he.2.1
    have hbit : ∀ i, i < 64 → w.getLsbD i = true → ∀ (m : Mask),
        (ms.take p.length ++ [[w]])[p.length]? = some m → m.bit i = true := by
      intro i hi hb m hm
      rw [List.getElem?_append_right (by simp; omega)] at hm
      simp only [List.length_take, Nat.min_eq_left h2, Nat.sub_self, List.getElem?_cons_zero,
        Option.some.injEq] at hm
      subst hm
      rw [bit_word hi]; exact hb
    obtain ⟨g1, g2⟩ := traverse_same
      (body' := exactBody B I.D p.length st.heap.next (unpath 64 p * 64 ^ (left + 2)) (fromExact B I s left))
      (body := Hibit.Dense.exactBody I.D p.length st.heap.next (unpath 64 p * 64 ^ (left + 2))
        (Hibit.Dense.fromExact I s left))
      (st := { st with cur := c0, heap := ⟨upd st.heap.node st.heap.next
        (some (openNode .branch w (popcount w + 1) [])), st.heap.next + 1⟩ }) (w := w)
      (fun c st' =>
        st.heap.next < st'.heap.next ∧
        (∀ a, st'.heap.next ≤ a → st'.heap.node a = none) ∧
        (∃ l, l.length = cnt w c ∧
          st'.heap.node st.heap.next = some (openNode .branch w (popcount w + 1) l)) ∧
        (∃ ms' b', ok st'.cur ms' b' ∧ p.length + 1 ≤ ms'.length ∧
          ms'.take (p.length + 1) = ms.take p.length ++ [[w]]))
      ⟨Nat.lt_succ_self _, fun a ha => (upd_ne _ _ (by have : st.heap.next + 1 ≤ a := ha; omega)).trans
          (hf a (by have : st.heap.next + 1 ≤ a := ha; omega)),
        ⟨[], rfl, by simp⟩, ⟨_, _, hok, by simp; omega, by rw [List.take_of_length_le (by simp; omega)]⟩⟩
      (by
        rintro c st1 hc hb ⟨q2, q3, ⟨l, q4, q5⟩, ⟨ms', b', q6, q7, q8⟩⟩
        have hvc := ValidPath.append hv hc
        have hle := unpath_lt_pow (p := p ++ [c]) (n := left + 1) hvc (D := I.D) (by simp; omega)
        have hlt := cnt_le w (show c + 1 ≤ 64 by omega)
        rw [cnt_set hb] at hlt
        have hent : EntryW ok (p ++ [c]) c ms' b' st1.cur := by
          refine ⟨q6, by simpa using q7, hc, fun e => by simp at e, fun m _ hm => ?_⟩
          refine hbit c hc hb m ?_
          rw [← hm, ← q8]
          simp only [List.length_append, List.length_singleton, Nat.add_sub_cancel]
          rw [List.getElem?_take_of_lt (by omega)]
        have hbs := blockStart_eq (D := I.D) (n := p.length) (m := left + 1) (by omega) h9 hc
        have ha : addUsize (unpath 64 p * 64 ^ (left + 2)) (c * 64 ^ (left + 1)) =
            .ok (unpath 64 (p ++ [c]) * 64 ^ (left + 1)) := by
          unfold addUsize
          rw [hblk, if_pos (by have := Nat.le_trans (Nat.le_add_right _ _) hle; omega)]
        unfold exactBody Hibit.Dense.exactBody
        rw [hbs, blockStart_le (B := B) _ _ _ _ hbs]
        simp only [bind_ok, ha, addUsize_le (B := B) _ _ _ ha]
        rw [ih (p ++ [c]) c st1 ms' b' (by simp; omega) hvc hent q3]
        have hrec := fromExact_rec hk hN h9 hex left (p ++ [c]) c st1 ms' b' (by simp; omega) hvc hent q3
        cases er : Hibit.Dense.fromExact I s left st1 c (unpath 64 (p ++ [c]) * 64 ^ (left + 1)) with
        | error x => exact ⟨rfl, fun _ e => by cases e⟩
        | ok r =>
          obtain ⟨st2, a⟩ := r
          obtain ⟨r1, r2, r3, ⟨ms2, b2, r4, r5, r6⟩, -⟩ := hrec.2 _ er
          simp only at r1 r2 r3 r4
          have hnode : st2.heap.node st.heap.next = some (openNode .branch w (popcount w + 1) l) := by
            rw [r1 _ q2]; exact q5
          simp only [bind_ok]
          have hp := rawPush_open hnode (by omega) (by omega) (.ptr (.heap a))
          rw [hp, rawPush_le (B := B) _ _ _ _ _ hp]
          refine ⟨rfl, fun st' e' => ?_⟩
          cases e'
          refine ⟨?_, ?_, ⟨l ++ [.ptr (.heap a)], ?_, ?_⟩, ⟨ms2, b2, r4, by simpa using r5, ?_⟩⟩
          · simp only [Heap.put]; omega
          · intro x hx
            simp only [Heap.put] at hx ⊢
            rw [upd_ne _ _ (by omega)]; exact r3 x hx
          · rw [cnt_set hb, List.length_append, q4]; rfl
          · simp [Heap.put]
          · rw [← q8]
            simpa using r6)
      (by
        rintro c st1 hc hb ⟨q2, q3, ⟨l, q4, q5⟩, q6⟩
        exact ⟨q2, q3, ⟨l, by rw [cnt_clr hb]; exact q4, q5⟩, q6⟩)
    rw [g1]
    generalize hx : traverseM (Hibit.Dense.exactBody I.D p.length st.heap.next (unpath 64 p * 64 ^ (left + 2))
        (Hibit.Dense.fromExact I s left)) { st with cur := c0, heap := ⟨upd st.heap.node st.heap.next
        (some (openNode .branch w (popcount w + 1) [])), st.heap.next + 1⟩ } [w] = x at g2
    cases x with
    | error x => rfl
    | ok st' =>
      obtain ⟨q2, q3, ⟨l, q4, q5⟩, -⟩ := g2 _ rfl
      rw [cnt_full] at q4
      simp only [bind_ok, emptyNode]
      rw [if_pos (by omega)]
      simp only [bind_ok]
      have hfin := rawFinalize_open q5 (by omega) (by omega)
      rw [hfin, rawFinalize_le (B := B) _ _ _ _ _ (hfin _)]

/-- from.rs:97-137 in any build. -/
theorem fromSparse_same (hk : SturdyBy tm true h I s ok) (hN : I.N = 1) (h9 : I.D ≤ 9) :
    ∀ (left : Nat) (p : List Nat) (index : Nat) (st : MSt C α)
      (ms : List Mask) (b : Bool), p.length + left + 1 = I.D → ValidPath 64 p →
      EntryW ok p index ms b st.cur → (∀ a, st.heap.next ≤ a → st.heap.node a = none) →
      fromSparse B I s left st index (unpath 64 p * 64 ^ (left + 1)) =
        Hibit.Dense.fromSparse I s left st index (unpath 64 p * 64 ^ (left + 1)) := by
  intro left
  induction left with
  | zero =>
    intro p index st ms b hl hv he hf
    simp only [Nat.zero_add, Nat.pow_one]
    have := congrArg (fun (m : R (MSt C α × Nat)) => m >>= fun r => (Pure.pure (r.1, some r.2) : R _))
      (terminal_same (B := B) hk hN h9 hv hl he)
    simp only [bind_assoc] at this
    unfold fromSparse Hibit.Dense.fromSparse
    exact this
  | succ left ih =>
    intro p index st ms b hl hv he hf
    have hn : I.D - 1 - (left + 1) = p.length := by omega
    have hD9 := pow_lt_usize h9
    have hblk : ∀ c, unpath 64 p * 64 ^ (left + 2) + c * 64 ^ (left + 1) =
        unpath 64 (p ++ [c]) * 64 ^ (left + 1) := by
      intro c
      rw [unpath_snoc, Nat.add_mul, Nat.pow_succ 64 (left + 1), Nat.mul_assoc,
        Nat.mul_comm 64 (64 ^ (left + 1))]
    unfold fromSparse Hibit.Dense.fromSparse
    simp only
    rw [hn]
    have hsel := selectU_rec hk hN (by omega) he
    cases e : I.selectU st.cur s p.length index with
    | error x => rfl
    | ok r =>
    obtain ⟨w, e1, hok⟩ := hsel.2 _ e
    obtain ⟨m, c0⟩ := r
    simp only at e1 hok
    subst e1
    simp only [Hibit.getU, List.getElem?_cons_zero, bind_ok]
    have h2 := he.2.1
    have hbit : ∀ i, i < 64 → w.getLsbD i = true → ∀ (m : Mask),
        (ms.take p.length ++ [[w]])[p.length]? = some m → m.bit i = true := by
      intro i hi hb m hm
      rw [List.getElem?_append_right (by simp; omega)] at hm
      simp only [List.length_take, Nat.min_eq_left h2, Nat.sub_self, List.getElem?_cons_zero,
        Option.some.injEq] at hm
      subst hm
      rw [bit_word hi]; exact hb
    obtain ⟨g1, -⟩ := traverse_same
      (body' := sparseBody B I.D p.length (unpath 64 p * 64 ^ (left + 2)) (fromSparse B I s left))
      (body := Hibit.Dense.sparseBody I.D p.length (unpath 64 p * 64 ^ (left + 2))
        (Hibit.Dense.fromSparse I s left))
      (st := ⟨{ st with cur := c0 }, 0, []⟩) (w := w)
      (fun _ v =>
        (∀ a, v.st.heap.next ≤ a → v.st.heap.node a = none) ∧
        (∃ ms' b', ok v.st.cur ms' b' ∧ p.length + 1 ≤ ms'.length ∧
          ms'.take (p.length + 1) = ms.take p.length ++ [[w]]))
      ⟨hf, ⟨_, _, hok, by simp; omega, by rw [List.take_of_length_le (by simp; omega)]⟩⟩
      (by
        rintro c v1 hc hb ⟨q3, ⟨ms', b', q6, q7, q8⟩⟩
        have hvc := ValidPath.append hv hc
        have hle := unpath_lt_pow (p := p ++ [c]) (n := left + 1) hvc (D := I.D) (by simp; omega)
        have hent : EntryW ok (p ++ [c]) c ms' b' v1.st.cur := by
          refine ⟨q6, by simpa using q7, hc, fun e => by simp at e, fun m _ hm => ?_⟩
          refine hbit c hc hb m ?_
          rw [← hm, ← q8]
          simp only [List.length_append, List.length_singleton, Nat.add_sub_cancel]
          rw [List.getElem?_take_of_lt (by omega)]
        have hbs := blockStart_eq (D := I.D) (n := p.length) (m := left + 1) (by omega) h9 hc
        have ha : addUsize (unpath 64 p * 64 ^ (left + 2)) (c * 64 ^ (left + 1)) =
            .ok (unpath 64 (p ++ [c]) * 64 ^ (left + 1)) := by
          unfold addUsize
          rw [hblk, if_pos (by have := Nat.le_trans (Nat.le_add_right _ _) hle; omega)]
        obtain ⟨w', hset, -⟩ := setBitUnchecked_spec true v1.nodeMask hc
        unfold sparseBody Hibit.Dense.sparseBody
        rw [hbs, blockStart_le (B := B) _ _ _ _ hbs]
        simp only [bind_ok, ha, addUsize_le (B := B) _ _ _ ha]
        rw [ih (p ++ [c]) c v1.st ms' b' (by simp; omega) hvc hent q3]
        have hrec := fromSparse_rec hk hN h9 left (p ++ [c]) c v1.st ms' b' (by simp; omega) hvc hent q3
        cases er : Hibit.Dense.fromSparse I s left v1.st c (unpath 64 (p ++ [c]) * 64 ^ (left + 1)) with
        | error x => exact ⟨rfl, fun _ e => by cases e⟩
        | ok r =>
          obtain ⟨st2, o⟩ := r
          obtain ⟨-, -, r3, ⟨ms2, b2, r4, r5, r6⟩, -⟩ := hrec.2 _ er
          simp only at r3 r4
          have hP : (∀ a, st2.heap.next ≤ a → st2.heap.node a = none) ∧
              (∃ ms' b', ok st2.cur ms' b' ∧ p.length + 1 ≤ ms'.length ∧
                ms'.take (p.length + 1) = ms.take p.length ++ [[w]]) :=
            ⟨r3, ms2, b2, r4, by simpa using r5, by rw [← q8]; simpa using r6⟩
          cases o with
          | none => exact ⟨rfl, fun st' e' => by cases e'; exact hP⟩
          | some x =>
            simp only [bind_ok, hset, B.setBitUnchecked_le _ _ _ _ hset]
            refine ⟨trivial, fun st' e' => ?_⟩
            split at e'
            · cases e'; exact hP
            · cases e')
      (fun c v _ _ hp => hp)
    rw [g1]

/-- `materialize` does the same in every build, whatever the source answers. -/
theorem materialize_same (hs : Sturdy tm true h I s) (hN : I.N = 1) (h9 : I.D ≤ 9) :
    materialize B I s = Hibit.Dense.materialize I s := by
  obtain ⟨ok, hk⟩ := hs
  have hD := hk.cfg.depth
  unfold materialize Hibit.Dense.materialize
  cases e : I.new s with
  | error x => rfl
  | ok c =>
    have hc := hk.create.2 _ e
    have hent : EntryW ok [] 0 [] true c := ⟨hc, Nat.le_refl _, by decide, fun _ => rfl, fun m h => by simp at h⟩
    simp only [bind_ok]
    unfold fromRoot Hibit.Dense.fromRoot
    by_cases hex : I.exact = true
    · have := fromExact_same (B := B) hk hN h9 hex (I.D - 1) [] 0
        ⟨⟨fun _ => none, 0⟩, c, [none], [usizeMod - 1]⟩ [] true (by simp; omega) ValidPath.nil
        hent (fun _ _ => rfl)
      simp only [unpath_nil, Nat.zero_mul] at this
      rw [if_pos hex, if_pos hex, this]
    · have := fromSparse_same (B := B) hk hN h9 (I.D - 1) [] 0
        ⟨⟨fun _ => none, 0⟩, c, [none], [usizeMod - 1]⟩ [] true (by simp; omega) ValidPath.nil
        hent (fun _ _ => rfl)
      simp only [unpath_nil, Nat.zero_mul] at this
      rw [if_neg hex, if_neg hex, this]

end
end Build.Dense

end Hibit
