import Verif.Dense.MatRec
/-!
# Materialize over sources with arbitrary answers: branch nodes and the whole construction
-/
namespace Hibit.Dense
open Hibit

section
variable {S C α : Type} {I : Impl S C α} {s : S} {h : Bool} {ok : C → List Mask → Bool → Prop}

theorem recPath_snoc {c p : List Nat} {i : Nat} (h : c.take p.length = p) :
    recPath c (p ++ [i]).length i = p ++ [i] := by
  unfold recPath
  rw [if_neg (by simp), List.length_append, List.length_singleton, Nat.add_sub_cancel, h]

theorem AgreeC.mono {p : List Nat} {c c' : Nat} {B B' : List Nat → Word}
    {dat dat' : List Nat → Option α} (ha : AgreeC p c' B dat B' dat') (hc : c ≤ c') :
    AgreeC p c B dat B' dat' := fun i hi => ha i (by omega)

/-- An agreement with the joined recording is one with its parts. -/
theorem AgreeC.split {p : List Nat} {c : Nat} {B B2 B' : List Nat → Word}
    {dat dat2 dat' : List Nat → Option α}
    (ha : AgreeC p (c + 1) (joinRec (p ++ [c]) B B2) (joinRec (p ++ [c]) dat dat2) B' dat') :
    AgreeC p c B dat B' dat' ∧ Agree (p ++ [c]) B2 dat2 B' dat' := by
  obtain ⟨a1, a2⟩ := agree_join p c B B2 dat dat2
  constructor
  · intro i hi q hq
    rw [(ha i (by omega) q hq).1, (ha i (by omega) q hq).2]
    exact a2 i (by omega) q hq
  · intro q hq
    rw [(ha c (by omega) q hq).1, (ha c (by omega) q hq).2]
    exact a1 q hq

theorem agreeC_of_agree {p : List Nat} {w : Word} {B B' : List Nat → Word}
    {dat dat' : List Nat → Option α} (ha : Agree p (upd B p w) dat B' dat') (c : Nat) :
    AgreeC p c B dat B' dat' ∧ B' p = w := by
  constructor
  · intro i hi q hq
    have := ha q ((List.prefix_append p [i]).trans hq)
    rw [upd_ne _ _ (ne_of_snoc hq)] at this
    exact this
  · rw [(ha p (List.prefix_refl p)).1, upd_same]

/-- from.rs:53-94 over a source with arbitrary answers. -/
theorem fromExact_rec (hk : SturdyBy tm true h I s ok) (hN : I.N = 1) (h9 : I.D ≤ 9)
    (hex : I.exact = true) : ∀ (left : Nat) (p : List Nat) (index : Nat) (st : MSt C α)
      (ms : List Mask) (b : Bool), p.length + left + 1 = I.D → ValidPath 64 p →
      EntryW ok p index ms b st.cur → (∀ a, st.heap.next ≤ a → st.heap.node a = none) →
      Nub tm (fromExact I s left st index (unpath 64 p * 64 ^ (left + 1)))
        (RecPost I ok p index (unpath 64 p * 64 ^ (left + 1)) (64 ^ (left + 1)) ms st
          fun B' dat' c => fromExact (asExact (recI I.D B' dat')) () left (recState st c) index
            (unpath 64 p * 64 ^ (left + 1))) := by
  intro left
  induction left with
  | zero =>
    intro p index st ms b hl hv he hf
    simp only [Nat.zero_add, Nat.pow_one]
    have := terminal_rec hk hN h9 hv hl he hf
    unfold fromExact
    rw [if_pos hex]
    exact this
  | succ left ih =>
    intro p index st ms b hl hv he hf
    have hn : I.D - 1 - (left + 1) = p.length := by omega
    have hD9 := pow_lt_usize h9
    have hblk : ∀ c, unpath 64 p * 64 ^ (left + 2) + c * 64 ^ (left + 1) =
        unpath 64 (p ++ [c]) * 64 ^ (left + 1) := by
      intro c
      rw [unpath_snoc, Nat.add_mul, Nat.pow_succ 64 (left + 1), Nat.mul_assoc,
        Nat.mul_comm 64 (64 ^ (left + 1))]
    generalize hrun : (fun (B' : List Nat → Word) (dat' : List Nat → Option α) (c : List Nat) =>
      fromExact (asExact (recI I.D B' dat')) () (left + 1) (recState st c) index
        (unpath 64 p * 64 ^ (left + 1 + 1))) = run
    unfold fromExact
    rw [if_pos hex]
    simp only
    rw [hn]
    refine (selectU_rec hk hN (by omega) he).bind ?_
    rintro ⟨m, c0⟩ ⟨w, rfl, hok⟩
    simp only [Hibit.getU, List.getElem?_cons_zero, bind_ok, capOf_eq, rawNew_eq, Heap.alloc]
    have hpop := popcount_le w
    have h2 := he.2.1
    have hbit : ∀ i, i < 64 → w.getLsbD i = true → ∀ (m : Mask),
        (ms.take p.length ++ [[w]])[p.length]? = some m → m.bit i = true := by
      intro i hi hb m hm
      rw [List.getElem?_append_right (by simp; omega)] at hm
      simp only [List.length_take, Nat.min_eq_left h2, Nat.sub_self, List.getElem?_cons_zero,
        Option.some.injEq] at hm
      subst hm
      rw [bit_word hi]; exact hb
    let st0 : MSt C α := { st with cur := c0, heap := ⟨upd st.heap.node st.heap.next
        (some (openNode .branch w (popcount w + 1) [])), st.heap.next + 1⟩ }
    let P : Nat → MSt C α → Prop := fun c st' =>
      (∀ a, a < st.heap.next → st'.heap.node a = st.heap.node a) ∧
      st.heap.next < st'.heap.next ∧
      (∀ a, st'.heap.next ≤ a → st'.heap.node a = none) ∧
      (∃ l, l.length = cnt w c ∧
        st'.heap.node st.heap.next = some (openNode .branch w (popcount w + 1) l)) ∧
      (∃ ms' b', ok st'.cur ms' b' ∧ p.length + 1 ≤ ms'.length ∧
        ms'.take (p.length + 1) = ms.take p.length ++ [[w]]) ∧
      ∃ B dat, RecPart I.D p w c B dat ∧ ∀ B' dat', AgreeC p c B dat B' dat' →
        (∃ c1, steps (exactBody I.D p.length st.heap.next (unpath 64 p * 64 ^ (left + 2))
            (fromExact (asExact (recI I.D B' dat')) () left)) w (recState st0 p) c =
            .ok (recState st' c1) ∧ c1.take p.length = p) ∧
        ((∀ i, i < c → w.getLsbD i = false → ∀ q, (p ++ [i]) <+: q → dat' q = none) →
          DataAt (recM I.D dat') st (unpath 64 p * 64 ^ (left + 2)) →
          DataAt (recM I.D dat') st' (unpath 64 p * 64 ^ (left + 2) + c * 64 ^ (left + 1)))
    have hloop : Nub tm (traverseM (exactBody I.D p.length st.heap.next (unpath 64 p * 64 ^ (left + 2))
        (fromExact I s left)) st0 [w]) (P 64) := by
      refine range_nub P ?_ ?_ ?_
      · refine ⟨fun a ha => upd_ne _ _ (by omega), Nat.lt_succ_self _,
          fun a ha => (upd_ne _ _ (by have : st.heap.next + 1 ≤ a := ha; omega)).trans
            (hf a (by have : st.heap.next + 1 ≤ a := ha; omega)),
          ⟨[], rfl, by simp [st0]⟩, ⟨_, _, hok, by simp; omega, ?_⟩, _, _, RecPart.init _ _ _, ?_⟩
        · rw [List.take_of_length_le (by simp; omega)]
        · intro B' dat' _
          refine ⟨⟨p, steps_zero _ _ _, by simp⟩, fun _ hd => ?_⟩
          rw [Nat.zero_mul, Nat.add_zero]; exact hd
      · rintro c st1 hc hb ⟨q1, q2, q3, ⟨l, q4, q5⟩, ⟨ms', b', q6, q7, q8⟩, B, dat, q9, q10⟩
        have hvc := ValidPath.append hv hc
        have hle := unpath_lt_pow (p := p ++ [c]) (n := left + 1) hvc (D := I.D) (by simp; omega)
        have hlt := cnt_le w (show c + 1 ≤ 64 by omega)
        rw [cnt_set hb] at hlt
        unfold exactBody
        rw [blockStart_eq (m := left + 1) (by omega) h9 hc]
        simp only [bind_ok, addUsize]
        rw [hblk, if_pos (by have := Nat.le_trans (Nat.le_add_right _ _) hle; omega)]
        simp only [bind_ok]
        have hent : EntryW ok (p ++ [c]) c ms' b' st1.cur := by
          refine ⟨q6, by simpa using q7, hc, fun e => by simp at e, fun m _ hm => ?_⟩
          refine hbit c hc hb m ?_
          rw [← hm, ← q8]
          simp only [List.length_append, List.length_singleton, Nat.add_sub_cancel]
          rw [List.getElem?_take_of_lt (by omega)]
        refine (ih (p ++ [c]) c st1 ms' b' (by simp; omega) hvc hent q3).bind ?_
        rintro ⟨st2, a⟩ ⟨r1, r2, r3, ⟨ms2, b2, r4, r5, r6⟩, B2, dat2, r7, r8⟩
        simp only at r1 r2 r3 r4 r8
        have hnode : st2.heap.node st.heap.next = some (openNode .branch w (popcount w + 1) l) := by
          rw [r1 _ q2]; exact q5
        simp only
        rw [rawPush_open hnode (by omega) (by omega)]
        refine Nub.ok ⟨?_, ?_, ?_, ⟨l ++ [.ptr (.heap a)], ?_, ?_⟩, ⟨ms2, b2, r4, by simpa using r5, ?_⟩,
          _, _, q9.join hb r7, ?_⟩
        · intro x hx
          simp only [Heap.put]
          rw [upd_ne _ _ (by omega), r1 x (by omega)]; exact q1 x hx
        · simp only [Heap.put]; omega
        · intro x hx
          simp only [Heap.put] at hx ⊢
          rw [upd_ne _ _ (by omega)]; exact r3 x hx
        · rw [cnt_set hb, List.length_append, q4]; rfl
        · simp [Heap.put]
        · rw [← q8]
          simpa using r6
        · intro B' dat' hag
          obtain ⟨hag1, hag2⟩ := hag.split
          obtain ⟨⟨c1, g1, g2⟩, g3⟩ := q10 B' dat' hag1
          obtain ⟨g4, g5⟩ := r8 B' dat' hag2
          obtain ⟨c2, g6, g7⟩ := g4 c1 (recPath_snoc g2)
          refine ⟨⟨c2, steps_set g1 hb ?_, ?_⟩, fun hz hd => ?_⟩
          · unfold exactBody
            rw [blockStart_eq (m := left + 1) (by omega) h9 hc]
            simp only [bind_ok, addUsize]
            rw [hblk, if_pos (by have := Nat.le_trans (Nat.le_add_right _ _) hle; omega)]
            simp only [bind_ok]
            rw [g6]
            simp only [bind_ok, recState]
            rw [rawPush_open hnode (by omega) (by omega)]
            rfl
          · have : (c2.take (p ++ [c]).length).take p.length = (p ++ [c]).take p.length := by rw [g7]
            rw [List.take_take] at this
            simpa using this
          · have hd1 := g3 (fun i hi => hz i (by omega)) hd
            rw [hblk] at hd1
            have := g5 hd1
            rw [hblk, unpath_snoc, show unpath 64 p * 64 + (c + 1) = unpath 64 p * 64 + c + 1 by omega,
              Nat.succ_mul, ← unpath_snoc]
            exact this
      · rintro c st1 hc hb ⟨q1, q2, q3, ⟨l, q4, q5⟩, q6, B, dat, q9, q10⟩
        refine ⟨q1, q2, q3, ⟨l, by rw [cnt_clr hb]; exact q4, q5⟩, q6, B, dat, q9.skip hb, ?_⟩
        intro B' dat' hag
        obtain ⟨⟨c1, g1, g2⟩, g3⟩ := q10 B' dat' (hag.mono (by omega))
        refine ⟨⟨c1, steps_clr g1 hb, g2⟩, fun hz hd => ?_⟩
        rw [Nat.succ_mul, ← Nat.add_assoc]
        refine (g3 (fun i hi => hz i (by omega)) hd).gap (fun r hr => ?_)
        unfold recM
        rw [hblk, path_child (ValidPath.append hv hc) (by simp; omega) hr]
        exact hz c (by omega) hb _ (List.prefix_append _ _)
    refine hloop.bind ?_
    rintro st' ⟨q1, q2, q3, ⟨l, q4, q5⟩, ⟨ms', b', q6, q7, q8⟩, B, dat, q9, q10⟩
    rw [cnt_full] at q4
    simp only [emptyNode]
    rw [if_pos (by omega)]
    simp only [bind_ok]
    rw [rawFinalize_open q5 (by omega) (by omega)]
    simp only [bind_ok]
    refine Nub.ok ⟨?_, ?_, ?_, ⟨ms', b', q6, by omega, ?_⟩, _, _, q9.close (by omega), ?_⟩
    · intro a ha
      simp only [Heap.put]
      rw [upd_ne _ _ (by omega)]; exact q1 a ha
    · simp only [Heap.put]; omega
    · intro a ha
      simp only [Heap.put] at ha ⊢
      rw [upd_ne _ _ (by omega)]; exact q3 a ha
    · have : (ms'.take (p.length + 1)).take p.length = (ms.take p.length ++ [[w]]).take p.length := by
        rw [q8]
      rw [List.take_take, List.take_append_of_le_length (by rw [List.length_take]; omega), List.take_take,
        Nat.min_self, Nat.min_eq_left (by omega)] at this
      exact this
    · intro B' dat' hag
      obtain ⟨hag1, hB⟩ := agreeC_of_agree hag 64
      obtain ⟨⟨c1, g1, g2⟩, g3⟩ := q10 B' dat' hag1
      constructor
      · intro cc hcc
        refine ⟨c1, ?_, g2⟩
        rw [← hrun]
        show fromExact (asExact (recI I.D B' dat')) () (left + 1) (recState st cc) index
          (unpath 64 p * 64 ^ (left + 2)) = _
        unfold fromExact
        rw [if_pos (show (asExact (recI I.D B' dat')).exact = true from rfl)]
        show (Except.ok ([B' (recPath cc (I.D - 1 - (left + 1)) index)],
          recPath cc (I.D - 1 - (left + 1)) index) >>= _) = _
        rw [hn, hcc, hB]
        simp only [bind_ok, Hibit.getU, List.getElem?_cons_zero, capOf_eq, rawNew_eq, Heap.alloc]
        have e : traverseM (exactBody I.D p.length st.heap.next (unpath 64 p * 64 ^ (left + 2))
            (fromExact (asExact (recI I.D B' dat')) () left)) (recState st0 p) [w] =
            .ok (recState st' c1) := by
          rw [traverseM_range]; exact g1
        rw [show (asExact (recI I.D B' dat')).D = I.D from rfl, hn]
        show (traverseM (exactBody I.D p.length st.heap.next (unpath 64 p * 64 ^ (left + 2))
            (fromExact (asExact (recI I.D B' dat')) () left)) (recState st0 p) [w] >>= _) = _
        rw [e]
        simp only [bind_ok, recState, emptyNode]
        rw [if_pos (by omega)]
        simp only [bind_ok]
        rw [rawFinalize_open q5 (by omega) (by omega)]
        rfl
      · intro hd
        have := g3 (fun i hi hb q hq => by
          rw [(hag1 i hi q hq).2]
          exact ((q9 i).2 (fun _ => hb) q hq).2) hd
        rw [show 64 ^ (left + 1 + 1) = 64 * 64 ^ (left + 1) by rw [Nat.pow_succ, Nat.mul_comm]] at this ⊢
        exact this

/-- The loop state over the recorded source. -/
def recS (v : SSt C α) (c : List Nat) : SSt (List Nat) α := ⟨recState v.st c, v.nodeMask, v.childs⟩

/-- from.rs:97-137 over a source with arbitrary answers. -/
theorem fromSparse_rec (hk : SturdyBy tm true h I s ok) (hN : I.N = 1) (h9 : I.D ≤ 9) :
    ∀ (left : Nat) (p : List Nat) (index : Nat) (st : MSt C α)
      (ms : List Mask) (b : Bool), p.length + left + 1 = I.D → ValidPath 64 p →
      EntryW ok p index ms b st.cur → (∀ a, st.heap.next ≤ a → st.heap.node a = none) →
      Nub tm (fromSparse I s left st index (unpath 64 p * 64 ^ (left + 1)))
        (RecPost I ok p index (unpath 64 p * 64 ^ (left + 1)) (64 ^ (left + 1)) ms st
          fun B' dat' c => fromSparse (recI I.D B' dat') () left (recState st c) index
            (unpath 64 p * 64 ^ (left + 1))) := by
  intro left
  induction left with
  | zero =>
    intro p index st ms b hl hv he hf
    simp only [Nat.zero_add, Nat.pow_one]
    have := terminal_rec hk hN h9 hv hl he hf
    have e : ∀ {S' C' : Type} (J : Impl S' C' α) (s' : S') (st' : MSt C' α) (k : Nat),
        fromSparse J s' 0 st' index k = ((do
          let (m, c) ← J.selectU st'.cur s' (J.D - 1) index
          let mask ← Hibit.getU m 0
          let cap ← capOf mask
          makeTerminalNode J s' { st' with cur := c } mask cap k) >>= fun r =>
            Pure.pure (r.1, some r.2)) := by
      intro S' C' J s' st' k
      simp only [fromSparse, bind_assoc]
    rw [e]
    refine this.bind ?_
    rintro ⟨st', a⟩ ⟨q1, q2, q3, q4, B, dat, q5, q6⟩
    refine Nub.pure ⟨q1, q2, q3, q4, B, dat, q5, ?_⟩
    intro B' dat' hag
    obtain ⟨g1, g2⟩ := q6 B' dat' hag
    refine ⟨fun c hc => ?_, g2⟩
    obtain ⟨c', g3, g4⟩ := g1 c hc
    refine ⟨c', ?_, g4⟩
    simp only
    rw [e]
    simp only at g3
    exact (congrArg (· >>= fun r => (Pure.pure (r.1, some r.2) : R _)) g3)
  | succ left ih =>
    intro p index st ms b hl hv he hf
    have hn : I.D - 1 - (left + 1) = p.length := by omega
    have hD9 := pow_lt_usize h9
    have hblk : ∀ c, unpath 64 p * 64 ^ (left + 2) + c * 64 ^ (left + 1) =
        unpath 64 (p ++ [c]) * 64 ^ (left + 1) := by
      intro c
      rw [unpath_snoc, Nat.add_mul, Nat.pow_succ 64 (left + 1), Nat.mul_assoc,
        Nat.mul_comm 64 (64 ^ (left + 1))]
    generalize hrun : (fun (B' : List Nat → Word) (dat' : List Nat → Option α) (c : List Nat) =>
      fromSparse (recI I.D B' dat') () (left + 1) (recState st c) index
        (unpath 64 p * 64 ^ (left + 1 + 1))) = run
    unfold fromSparse
    simp only
    rw [hn]
    refine (selectU_rec hk hN (by omega) he).bind ?_
    rintro ⟨m, c0⟩ ⟨w, rfl, hok⟩
    simp only [Hibit.getU, List.getElem?_cons_zero, bind_ok]
    have h2 := he.2.1
    have hbit : ∀ i, i < 64 → w.getLsbD i = true → ∀ (m : Mask),
        (ms.take p.length ++ [[w]])[p.length]? = some m → m.bit i = true := by
      intro i hi hb m hm
      rw [List.getElem?_append_right (by simp; omega)] at hm
      simp only [List.length_take, Nat.min_eq_left h2, Nat.sub_self, List.getElem?_cons_zero,
        Option.some.injEq] at hm
      subst hm
      rw [bit_word hi]; exact hb
    let v0 : SSt C α := ⟨{ st with cur := c0 }, 0, []⟩
    let P : Nat → SSt C α → Prop := fun c v =>
      (∀ a, a < st.heap.next → v.st.heap.node a = st.heap.node a) ∧
      st.heap.next ≤ v.st.heap.next ∧
      (∀ a, v.st.heap.next ≤ a → v.st.heap.node a = none) ∧
      v.childs.length ≤ c ∧
      (∃ ms' b', ok v.st.cur ms' b' ∧ p.length + 1 ≤ ms'.length ∧
        ms'.take (p.length + 1) = ms.take p.length ++ [[w]]) ∧
      ∃ B dat, RecPart I.D p w c B dat ∧ ∀ B' dat', AgreeC p c B dat B' dat' →
        (∃ c1, steps (sparseBody I.D p.length (unpath 64 p * 64 ^ (left + 2))
            (fromSparse (recI I.D B' dat') () left)) w (recS v0 p) c =
            .ok (recS v c1) ∧ c1.take p.length = p) ∧
        ((∀ i, i < c → w.getLsbD i = false → ∀ q, (p ++ [i]) <+: q → dat' q = none) →
          DataAt (recM I.D dat') st (unpath 64 p * 64 ^ (left + 2)) →
          DataAt (recM I.D dat') v.st (unpath 64 p * 64 ^ (left + 2) + c * 64 ^ (left + 1)))
    have hloop : Nub tm (traverseM (sparseBody I.D p.length (unpath 64 p * 64 ^ (left + 2))
        (fromSparse I s left)) v0 [w]) (P 64) := by
      refine range_nub P ?_ ?_ ?_
      · refine ⟨fun a ha => rfl, Nat.le_refl _, hf, Nat.le_refl _, ⟨_, _, hok, by simp; omega, ?_⟩, _, _,
          RecPart.init _ _ _, ?_⟩
        · rw [List.take_of_length_le (by simp; omega)]
        · intro B' dat' _
          refine ⟨⟨p, steps_zero _ _ _, by simp⟩, fun _ hd => ?_⟩
          rw [Nat.zero_mul, Nat.add_zero]; exact hd
      · rintro c v1 hc hb ⟨q1, q2, q3, q4, ⟨ms', b', q6, q7, q8⟩, B, dat, q9, q10⟩
        have hvc := ValidPath.append hv hc
        have hle := unpath_lt_pow (p := p ++ [c]) (n := left + 1) hvc (D := I.D) (by simp; omega)
        have hent : EntryW ok (p ++ [c]) c ms' b' v1.st.cur := by
          refine ⟨q6, by simpa using q7, hc, fun e => by simp at e, fun m _ hm => ?_⟩
          refine hbit c hc hb m ?_
          rw [← hm, ← q8]
          simp only [List.length_append, List.length_singleton, Nat.add_sub_cancel]
          rw [List.getElem?_take_of_lt (by omega)]
        have hbody : ∀ {S' C' : Type} (J : Impl S' C' α) (s' : S') (v : SSt C' α),
            sparseBody I.D p.length (unpath 64 p * 64 ^ (left + 2)) (fromSparse J s' left) v c =
            (fromSparse J s' left v.st c (unpath 64 (p ++ [c]) * 64 ^ (left + 1)) >>= fun r =>
              match r.2 with
              | some x => do
                let y ← setBitUnchecked true v.nodeMask c
                if v.childs.length < 64 then
                  return ⟨r.1, y.2, v.childs ++ [.ptr (.heap x)]⟩
                else .error .ub
              | none => return { v with st := r.1 }) := by
          intro S' C' J s' v
          unfold sparseBody
          rw [blockStart_eq (m := left + 1) (by omega) h9 hc]
          simp only [bind_ok, addUsize]
          rw [hblk, if_pos (by have := Nat.le_trans (Nat.le_add_right _ _) hle; omega)]
          simp only [bind_ok]
          rfl
        obtain ⟨w', hset, -⟩ := setBitUnchecked_spec true v1.nodeMask hc
        rw [hbody]
        refine (ih (p ++ [c]) c v1.st ms' b' (by simp; omega) hvc hent q3).bind ?_
        rintro ⟨st2, o⟩ ⟨r1, r2, r3, ⟨ms2, b2, r4, r5, r6⟩, B2, dat2, r7, r8⟩
        simp only at r1 r2 r3 r4 r8
        have fin : ∀ v2 : SSt C α, v2.st = st2 → v2.childs.length ≤ c + 1 →
            (∀ B' dat' c1 c2, fromSparse (recI I.D B' dat') () left (recState v1.st c1) c
              (unpath 64 (p ++ [c]) * 64 ^ (left + 1)) = .ok (recState st2 c2, o) →
              sparseBody I.D p.length (unpath 64 p * 64 ^ (left + 2))
                (fromSparse (recI I.D B' dat') () left) (recS v1 c1) c = .ok (recS v2 c2)) →
            P (c + 1) v2 := by
          intro v2 hv2 hch hb2
          refine ⟨?_, ?_, ?_, hch, ⟨ms2, b2, by rw [hv2]; exact r4, by simpa using r5, ?_⟩,
            _, _, q9.join hb r7, ?_⟩
          · intro x hx
            rw [hv2, r1 x (by omega)]; exact q1 x hx
          · rw [hv2]; omega
          · rw [hv2]; exact r3
          · rw [← q8]
            simpa using r6
          · intro B' dat' hag
            obtain ⟨hag1, hag2⟩ := hag.split
            obtain ⟨⟨c1, g1, g2⟩, g3⟩ := q10 B' dat' hag1
            obtain ⟨g4, g5⟩ := r8 B' dat' hag2
            obtain ⟨c2, g6, g7⟩ := g4 c1 (recPath_snoc g2)
            refine ⟨⟨c2, steps_set g1 hb (hb2 B' dat' c1 c2 g6), ?_⟩, fun hz hd => ?_⟩
            · have : (c2.take (p ++ [c]).length).take p.length = (p ++ [c]).take p.length := by rw [g7]
              rw [List.take_take] at this
              simpa using this
            · have hd1 := g3 (fun i hi => hz i (by omega)) hd
              rw [hblk] at hd1
              have := g5 hd1
              rw [hblk, unpath_snoc, show unpath 64 p * 64 + (c + 1) = unpath 64 p * 64 + c + 1 by omega,
                Nat.succ_mul, ← unpath_snoc, hv2]
              exact this
        cases o with
        | none =>
          refine Nub.pure (fin _ rfl (by simp only; omega) ?_)
          intro B' dat' c1 c2 g
          rw [hbody]
          show (fromSparse (recI I.D B' dat') () left (recState v1.st c1) c _ >>= _) = _
          rw [g]
          rfl
        | some x =>
          simp only [hset, bind_ok]
          rw [if_pos (by omega)]
          refine Nub.pure (fin _ rfl (by simp only [List.length_append, List.length_singleton]; omega) ?_)
          intro B' dat' c1 c2 g
          rw [hbody]
          show (fromSparse (recI I.D B' dat') () left (recState v1.st c1) c _ >>= _) = _
          rw [g]
          show (setBitUnchecked true v1.nodeMask c >>= _) = _
          rw [hset]
          simp only [bind_ok]
          rw [if_pos (show (recS v1 c1).childs.length < 64 by simp only [recS]; omega)]
          rfl
      · rintro c v1 hc hb ⟨q1, q2, q3, q4, q6, B, dat, q9, q10⟩
        refine ⟨q1, q2, q3, by omega, q6, B, dat, q9.skip hb, ?_⟩
        intro B' dat' hag
        obtain ⟨⟨c1, g1, g2⟩, g3⟩ := q10 B' dat' (hag.mono (by omega))
        refine ⟨⟨c1, steps_clr g1 hb, g2⟩, fun hz hd => ?_⟩
        rw [Nat.succ_mul, ← Nat.add_assoc]
        refine (g3 (fun i hi => hz i (by omega)) hd).gap (fun r hr => ?_)
        unfold recM
        rw [hblk, path_child (ValidPath.append hv hc) (by simp; omega) hr]
        exact hz c (by omega) hb _ (List.prefix_append _ _)
    refine hloop.bind ?_
    rintro v ⟨q1, q2, q3, q4, ⟨ms', b', q6, q7, q8⟩, B, dat, q9, q10⟩
    have htake : ms'.take p.length = ms.take p.length := by
      have : (ms'.take (p.length + 1)).take p.length = (ms.take p.length ++ [[w]]).take p.length := by
        rw [q8]
      rw [List.take_take, List.take_append_of_le_length (by rw [List.length_take]; omega), List.take_take,
        Nat.min_self, Nat.min_eq_left (by omega)] at this
      exact this
    have hrec : ∀ B' dat' cc c1, recPath cc p.length index = p → B' p = w →
        steps (sparseBody I.D p.length (unpath 64 p * 64 ^ (left + 2))
          (fromSparse (recI I.D B' dat') () left)) w (recS v0 p) 64 = .ok (recS v c1) →
        run B' dat' cc = (if v.childs.isEmpty then (Pure.pure (recState v.st c1, none) : R _)
          else do
            let e ← emptyNode (p.length + 1) I.D
            let x := fromParts v.st.heap v.nodeMask v.childs (.ptr e)
            return ({ recState v.st c1 with heap := x.1 }, some x.2)) := by
      intro B' dat' cc c1 hcc hB g1
      rw [← hrun]
      show fromSparse (recI I.D B' dat') () (left + 1) (recState st cc) index
        (unpath 64 p * 64 ^ (left + 2)) = _
      unfold fromSparse
      show (Except.ok ([B' (recPath cc (I.D - 1 - (left + 1)) index)],
        recPath cc (I.D - 1 - (left + 1)) index) >>= _) = _
      rw [hn, hcc, hB]
      simp only [bind_ok, Hibit.getU, List.getElem?_cons_zero]
      have e : traverseM (sparseBody I.D p.length (unpath 64 p * 64 ^ (left + 2))
          (fromSparse (recI I.D B' dat') () left)) (recS v0 p) [w] = .ok (recS v c1) := by
        rw [traverseM_range]; exact g1
      rw [show (recI I.D B' dat').D = I.D from rfl, hn]
      show (traverseM (sparseBody I.D p.length (unpath 64 p * 64 ^ (left + 2))
          (fromSparse (recI I.D B' dat') () left)) (recS v0 p) [w] >>= _) = _
      rw [e]
      rfl
    have hgrow : ∀ B' dat', Agree p (upd B p w) dat B' dat' →
        DataAt (recM I.D dat') st (unpath 64 p * 64 ^ (left + 1 + 1)) →
        DataAt (recM I.D dat') v.st (unpath 64 p * 64 ^ (left + 1 + 1) + 64 ^ (left + 1 + 1)) := by
      intro B' dat' hag hd
      obtain ⟨hag1, hB⟩ := agreeC_of_agree hag 64
      obtain ⟨-, g3⟩ := q10 B' dat' hag1
      have := g3 (fun i hi hb q hq => by
        rw [(hag1 i hi q hq).2]
        exact ((q9 i).2 (fun _ => hb) q hq).2) hd
      rw [show 64 ^ (left + 1 + 1) = 64 * 64 ^ (left + 1) by rw [Nat.pow_succ, Nat.mul_comm]] at this ⊢
      exact this
    by_cases hem : v.childs.isEmpty = true
    · rw [if_pos hem]
      refine Nub.pure ⟨q1, q2, q3, ⟨ms', b', q6, by omega, htake⟩, _, _, q9.close (by omega), ?_⟩
      intro B' dat' hag
      obtain ⟨hag1, hB⟩ := agreeC_of_agree hag 64
      obtain ⟨⟨c1, g1, g2⟩, -⟩ := q10 B' dat' hag1
      refine ⟨fun cc hcc => ⟨c1, ?_, g2⟩, hgrow B' dat' hag⟩
      rw [hrec B' dat' cc c1 hcc hB g1, if_pos hem]
      rfl
    · rw [if_neg hem]
      simp only [emptyNode]
      rw [if_pos (by omega)]
      simp only [bind_ok]
      refine Nub.pure ⟨?_, ?_, ?_, ⟨ms', b', q6, by omega, htake⟩, _, _, q9.close (by omega), ?_⟩
      · intro a ha
        simp only [fromParts, Heap.alloc]
        rw [upd_ne _ _ (by omega)]; exact q1 a ha
      · simp only [fromParts, Heap.alloc]; omega
      · intro a ha
        simp only [fromParts, Heap.alloc] at ha ⊢
        rw [upd_ne _ _ (by omega)]; exact q3 a (by omega)
      · intro B' dat' hag
        obtain ⟨hag1, hB⟩ := agreeC_of_agree hag 64
        obtain ⟨⟨c1, g1, g2⟩, -⟩ := q10 B' dat' hag1
        refine ⟨fun cc hcc => ⟨c1, ?_, g2⟩, hgrow B' dat' hag⟩
        rw [hrec B' dat' cc c1 hcc hB g1, if_neg hem]
        simp only [emptyNode]
        rw [if_pos (by omega)]
        rfl

/-! ### The recorded source is lawful -/

/-- The denotation of a recorded source. -/
def recT {α : Type} (B : List Nat → Word) (dat : List Nat → Option α) : TreeSpec α :=
  ⟨fun p i => (B p).getLsbD i, dat⟩

/-- Cursors of a recorded source. -/
def recK (D : Nat) : CursorRel (List Nat) :=
  ⟨fun _ => True, fun c p => p <+: c ∧ c.length < D, fun c p => p <+: c ∧ c.length < D⟩

theorem bits_rec (w : Word) (j : Nat) : Mask.bit [w] j = w.getLsbD j := by
  by_cases hj : j < 64
  · exact bit_word hj
  · have : w.getLsbD j = false := BitVec.getLsbD_of_ge w j (by omega)
    rw [this]
    unfold Mask.bit
    rw [List.getD_eq_getElem?_getD, List.getElem?_eq_none (by simp; omega)]
    simp

theorem rec_lawful {α : Type} {D : Nat} {B : List Nat → Word} {dat : List Nat → Option α}
    (hD : 0 < D) (h9 : D ≤ 9) (ho : RecOut D [] B dat) :
    Lawful (recI D B dat) () (recT B dat) (recK D) where
  cfg := validCfg hD h9
  wf :=
    { bits_lt := by
        intro p i hb
        rcases Nat.lt_or_ge i 64 with hi | hi
        · exact hi
        · have : (B p).getLsbD i = false := BitVec.getLsbD_of_ge _ i hi
          rw [show (recT B dat).bits p i = (B p).getLsbD i from rfl, this] at hb
          cases hb
      terminal := fun p i _ hl hi => ho.term p i List.nil_prefix hl hi
      upward := fun p i j _ hi _ hb => ho.up p i j List.nil_prefix hi hb
      exact_child := fun e => by cases e }
  data_eq := fun _ _ _ => rfl
  dataU_eq := by
    intro p d _ _ e
    have e' : dat p = some d := e
    simp only [recI, e']
  new_ok := ⟨[], rfl, trivial⟩
  pos_inv := fun _ _ _ => trivial
  posC_pos := fun _ _ h => h
  pos_take := fun c p k ⟨h1, h2⟩ => ⟨(List.take_prefix k p).trans h1, h2⟩
  select_root := by
    rintro c i - rfl
    refine ⟨_, _, rfl, rfl, fun j => ?_, List.prefix_refl _, hD⟩
    rw [bits_rec]; rfl
  selectU_root := by
    rintro c i - rfl
    refine ⟨_, _, rfl, rfl, fun j => ?_, List.prefix_refl _, hD⟩
    rw [bits_rec]; rfl
  select_node := by
    rintro c p i ⟨⟨x, rfl⟩, hc⟩ _ hi hl
    have e : recPath (p ++ x) (p.length + 1) i = p ++ [i] := by
      simp [recPath]
    refine ⟨_, _, rfl, rfl, fun j => ?_, by rw [e]; exact List.prefix_refl _, ?_⟩
    · rw [bits_rec, e]; rfl
    · rw [e]; simp; exact hl
  selectU_node := by
    rintro c p i ⟨⟨x, rfl⟩, hc⟩ _ hi hl _
    have e : recPath (p ++ x) (p.length + 1) i = p ++ [i] := by
      simp [recPath]
    refine ⟨_, _, rfl, rfl, fun j => ?_, by rw [e]; exact List.prefix_refl _, ?_⟩
    · rw [bits_rec, e]; rfl
    · rw [e]; simp; exact hl
  curDataU_eq := by
    rintro c p i d ⟨h1, hc⟩ _ _ hl e
    have hp : p = c := by
      have hl' : p.length + 1 = D := hl
      exact h1.eq_of_length (by have := h1.length_le; omega)
    subst hp
    have e' : dat (p ++ [i]) = some d := e
    simp only [recI, e']

/-- The whole construction over a source with arbitrary answers. -/
theorem materialize_rec {u : Bool} (hs : Sturdy tm true u I s) (hN : I.N = 1) (h9 : I.D ≤ 9) :
    ((I.exact = true → materialize I s ≠ .error .ub) ∧
      (tm = true → materialize I s ≠ .error .fuel)) ∧
    ∀ t, materialize I s = .ok t → ∃ B dat, RecOut I.D [] B dat ∧
      materialize { recI I.D B dat with exact := I.exact } () = .ok t ∧
      t.data = none :: (valuesOf (64 ^ I.D) (recM I.D dat)).map some ∧
      t.keys = (usizeMod - 1) :: keysOf (64 ^ I.D) (recM I.D dat) := by
  obtain ⟨ok, hk⟩ := hs
  have hD := hk.cfg.depth
  have hinit : ∀ (c : C) (dat : List Nat → Option α),
      DataAt (recM I.D dat) (⟨⟨fun _ => none, 0⟩, c, [none], [usizeMod - 1]⟩ : MSt C α) 0 := by
    intro c dat
    simp [DataAt, valuesOf, keysOf]
  have hrp : recPath [] ([] : List Nat).length 0 = [] := rfl
  have hent : ∀ c, ok c [] true → EntryW ok [] 0 [] true c := fun c hc =>
    ⟨hc, Nat.le_refl _, by decide, fun _ => rfl, fun m h => by simp at h⟩
  cases hex : I.exact with
  | true =>
    have key : Nub tm (materialize I s) (fun t => ∃ B dat, RecOut I.D [] B dat ∧
        materialize { recI I.D B dat with exact := true } () = .ok t ∧
        t.data = none :: (valuesOf (64 ^ I.D) (recM I.D dat)).map some ∧
        t.keys = (usizeMod - 1) :: keysOf (64 ^ I.D) (recM I.D dat)) := by
      unfold materialize
      refine hk.create.bind fun c hc => ?_
      have hx := fromExact_rec hk hN h9 hex (I.D - 1) [] 0
        ⟨⟨fun _ => none, 0⟩, c, [none], [usizeMod - 1]⟩ [] true (by simp; omega) ValidPath.nil
        (hent c hc) (fun _ _ => rfl)
      rw [show I.D - 1 + 1 = I.D by omega] at hx
      simp only [unpath_nil, Nat.zero_mul] at hx
      unfold fromRoot
      rw [if_pos hex]
      refine hx.bind ?_
      rintro ⟨st, a⟩ ⟨-, -, -, -, B, dat, q1, q2⟩
      obtain ⟨g1, g2⟩ := q2 B dat (fun q _ => ⟨rfl, rfl⟩)
      obtain ⟨c', g3, -⟩ := g1 [] hrp
      have g4 := g2 (hinit c dat)
      rw [Nat.zero_add] at g4
      refine Nub.pure ⟨B, dat, q1, ?_, g4.1, g4.2⟩
      have g3' : fromExact (asExact (recI I.D B dat)) () (I.D - 1)
          ⟨⟨fun _ => none, 0⟩, [], [none], [usizeMod - 1]⟩ 0 0 = .ok (recState st c', a) := g3
      show (fromRoot (asExact (recI I.D B dat)) () ⟨⟨fun _ => none, 0⟩, [], [none], [usizeMod - 1]⟩ >>= _) = _
      unfold fromRoot
      rw [if_pos (show (asExact (recI I.D B dat)).exact = true from rfl),
        show (asExact (recI I.D B dat)).D = I.D from rfl, g3']
      rfl
    exact ⟨⟨fun _ => key.1.1, key.1.2⟩, key.2⟩
  | false =>
    refine ⟨⟨fun e => (by cases e), fun e ht => ?_⟩, fun t ht => ?_⟩
    · unfold materialize at ht
      cases e0 : I.new s with
      | error x =>
        rw [e0] at ht
        cases ht
        exact hk.create.1.2 e e0
      | ok c =>
        have hc := hk.create.2 c e0
        have hx := fromSparse_rec hk hN h9 (I.D - 1) [] 0
          ⟨⟨fun _ => none, 0⟩, c, [none], [usizeMod - 1]⟩ [] true (by simp; omega) ValidPath.nil
          (hent c hc) (fun _ _ => rfl)
        rw [show I.D - 1 + 1 = I.D by omega] at hx
        simp only [unpath_nil, Nat.zero_mul] at hx
        rw [e0, bind_ok] at ht
        unfold fromRoot at ht
        rw [if_neg (by simp [hex])] at ht
        cases e1 : fromSparse I s (I.D - 1) ⟨⟨fun _ => none, 0⟩, c, [none], [usizeMod - 1]⟩ 0 0 with
        | error x =>
          rw [e1] at ht
          cases ht
          exact hx.1.2 e e1
        | ok r =>
          rw [e1] at ht
          obtain ⟨st, o⟩ := r
          simp only [bind_ok] at ht
          cases o <;> cases ht
    unfold materialize at ht
    obtain ⟨c, e0, ht⟩ := bind_inv ht
    have hc := hk.create.2 c e0
    have hx := fromSparse_rec hk hN h9 (I.D - 1) [] 0
      ⟨⟨fun _ => none, 0⟩, c, [none], [usizeMod - 1]⟩ [] true (by simp; omega) ValidPath.nil
      (hent c hc) (fun _ _ => rfl)
    rw [show I.D - 1 + 1 = I.D by omega] at hx
    simp only [unpath_nil, Nat.zero_mul] at hx
    unfold fromRoot at ht
    rw [if_neg (by simp [hex])] at ht
    obtain ⟨⟨st, a⟩, e1, ht⟩ := bind_inv ht
    obtain ⟨⟨st1, o⟩, e2, e1⟩ := bind_inv e1
    obtain ⟨-, -, -, -, B, dat, q1, q2⟩ := hx.2 _ e2
    obtain ⟨b, e3, e1⟩ := bind_inv e1
    obtain ⟨g1, g2⟩ := q2 B dat (fun q _ => ⟨rfl, rfl⟩)
    obtain ⟨c', g3, -⟩ := g1 [] hrp
    have g4 := g2 (hinit c dat)
    rw [Nat.zero_add] at g4
    cases e1
    cases ht
    refine ⟨B, dat, q1, ?_, g4.1, g4.2⟩
    have g3' : fromSparse (recI I.D B dat) () (I.D - 1)
        ⟨⟨fun _ => none, 0⟩, [], [none], [usizeMod - 1]⟩ 0 0 = .ok (recState st c', o) := g3
    show (fromRoot (recI I.D B dat) () ⟨⟨fun _ => none, 0⟩, [], [none], [usizeMod - 1]⟩ >>= _) = _
    unfold fromRoot
    rw [if_neg (show ¬ (recI I.D B dat).exact = true from (fun e => by cases e)),
      show (recI I.D B dat).D = I.D from rfl, g3']
    simp only [bind_ok]
    rw [e3]
    rfl

/-- Whatever the source's answers, the materialized tree holds the elements it was given, and, if they
fit, is well-formed: fully, for a source claiming an exact hierarchy; up to the header lengths of its
branch nodes (finding 2), for other sources. -/
theorem materialize_wrong {u : Bool} (hs : Sturdy tm true u I s) (hN : I.N = 1) (h9 : I.D ≤ 9) :
    ((I.exact = true → materialize I s ≠ .error .ub) ∧
      (tm = true → materialize I s ≠ .error .fuel)) ∧
    ∀ t, materialize I s = .ok t → t.data.length ≤ 2 ^ 32 → ∃ M : Nat → Option α,
      (∀ k, 64 ^ I.D ≤ k → M k = none) ∧
      t.data = none :: (valuesOf (64 ^ I.D) M).map some ∧
      t.keys = (usizeMod - 1) :: keysOf (64 ^ I.D) M ∧
      (I.exact = true → DRep NoNode I.D t M) ∧ DRep NoNode I.D (if I.exact then t else fixT t) M := by
  obtain ⟨h1, h2⟩ := materialize_rec hs hN h9
  refine ⟨h1, fun t ht hlen => ?_⟩
  have hD : 0 < I.D := hs.choose_spec.cfg.depth
  obtain ⟨B, dat, ho, hm, hd, hkeys⟩ := h2 t ht
  let M : Nat → Option α := fun k => if k < 64 ^ I.D then recM I.D dat k else none
  have hM : ∀ k, k < 64 ^ I.D → recM I.D dat k = M k := fun k hk => by simp only [M]; rw [if_pos hk]
  have hv : valuesOf (64 ^ I.D) (recM I.D dat) = valuesOf (64 ^ I.D) M := by
    unfold valuesOf
    exact filterMap_congr_mem fun k hk => by rw [hM k (List.mem_range.1 hk)]
  have hkk : keysOf (64 ^ I.D) (recM I.D dat) = keysOf (64 ^ I.D) M := by
    unfold keysOf
    exact List.filter_congr fun k hk => by rw [hM k (List.mem_range.1 hk)]
  rw [hv] at hd
  rw [hkk] at hkeys
  have hout : ∀ k, 64 ^ I.D ≤ k → M k = none := fun k hk => by
    simp only [M]; rw [if_neg (by omega)]
  have X : Src (recI I.D B dat) () (recT B dat) (recK I.D) M :=
    { L := rec_lawful hD h9 ho
      hN := rfl
      h9 := h9
      hc := fun i hi => hM i hi
      room := by
        have : (valuesOf (64 ^ I.D) M).length + 1 ≤ 2 ^ 32 := by
          rw [hd] at hlen
          simpa using hlen
        show card (64 ^ I.D) M < 2 ^ 32
        rw [← card_eq_length]; omega }
  refine ⟨M, hout, hd, hkeys, ?_⟩
  cases hex : I.exact with
  | true =>
    rw [hex] at hm
    obtain ⟨t', e, R, -⟩ := materialize_any X hout
    have : materialize (asExact (recI I.D B dat)) () = .ok t := hm
    rw [this] at e
    cases e
    exact ⟨fun _ => R, R⟩
  | false =>
    rw [hex] at hm
    have hm' : materialize (recI I.D B dat) () = .ok t := hm
    obtain ⟨g1, g2⟩ := materialize_sparse X rfl hout
    refine ⟨fun e => (by cases e), ?_⟩
    by_cases hl : LiveS (recI I.D B dat).D (recT B dat) []
    · obtain ⟨t', e, R, -⟩ := g2 hl
      rw [hm'] at e
      cases e
      exact R
    · rw [g1 hl] at hm'
      cases hm'

end

end Hibit.Dense
