import Verif.IterTrace
import Verif.Dense.MatFail
import Verif.Dense.MatExact
/-!
# What `materialize` costs: select calls and allocations
-/
namespace Hibit.Dense
open Hibit

/-- `materialize` (from.rs:153-181) of a tree whose cursor records its select calls (`traced`, `IterTrace`): the new
tree and the calls, in order. -/
def matTrace {S C α : Type} (I : Impl S C α) (s : S) : R (DT α × List (Nat × Nat)) := do
  let cur ← (traced I).new s
  let (st, a) ← fromRoot (traced I) s ⟨⟨fun _ => none, 0⟩, cur, [none], [usizeMod - 1]⟩
  return (⟨st.heap, .heap a, st.data, st.keys⟩, st.cur.2)

/-! ## Recording does not interfere -/

section
variable {ρ' ρ τ' τ : Type}

theorem map_bind {m' : R ρ'} {m : R ρ} {F : ρ' → ρ} {f' : ρ' → R τ'} {f : ρ → R τ} {F2 : τ' → τ}
    (h : m = m'.map F) (h2 : ∀ r, f (F r) = (f' r).map F2) : (m >>= f) = (m' >>= f').map F2 := by
  subst h
  cases m' with
  | error e => rfl
  | ok r => exact h2 r

theorem map_same {r : R ρ} {f' : ρ → R τ'} {f : ρ → R τ} {F2 : τ' → τ}
    (h2 : ∀ b, f b = (f' b).map F2) : (r >>= f) = (r >>= f').map F2 := by
  cases r with
  | error e => rfl
  | ok r => exact h2 r

theorem map_fold {body' : τ' → Nat → R τ'} {body : τ → Nat → R τ} {F : τ' → τ}
    (h : ∀ v i, body (F v) i = (body' v i).map F) : ∀ (l : List Nat) (v : τ'),
    l.foldlM body (F v) = (l.foldlM body' v).map F
  | [], v => rfl
  | a :: l, v => by
    rw [List.foldlM_cons, List.foldlM_cons]
    exact map_bind (h v a) fun r => map_fold h l r

theorem map_traverse {body' : τ' → Nat → R τ'} {body : τ → Nat → R τ} {F : τ' → τ}
    (h : ∀ v i, body (F v) i = (body' v i).map F) (m : Mask) (v : τ') :
    traverseM body (F v) m = (traverseM body' v m).map F := by
  rw [traverseM_eq, traverseM_eq]
  exact map_fold h _ _

end

section
variable {S C α : Type} (I : Impl S C α) (s : S)

/-- Forget the recording. -/
def eraseSt {L : Type} (st : MSt (C × L) α) : MSt C α := ⟨st.heap, st.cur.1, st.data, st.keys⟩

theorem terminalBody_erase (a acc : Nat) (st : MSt (C × List (Nat × Nat)) α) (i : Nat) :
    terminalBody I s a acc (eraseSt st) i = (terminalBody (traced I) s a acc st i).map eraseSt := by
  unfold terminalBody
  refine map_same fun d => map_same fun k => ?_
  simp only [pushData]
  exact map_same fun h => rfl

theorem makeTerminalNode_erase (st : MSt (C × List (Nat × Nat)) α) (mask : Word) (cap acc : Nat) :
    makeTerminalNode I s (eraseSt st) mask cap acc =
      (makeTerminalNode (traced I) s st mask cap acc).map (fun r => (eraseSt r.1, r.2)) := by
  unfold makeTerminalNode
  simp only [rawNew, Heap.alloc]
  refine map_bind (map_traverse (F := eraseSt) (terminalBody_erase I s _ _) [mask]
    { st with heap := ⟨upd st.heap.node st.heap.next (some ⟨.term, mask, cap, 0, List.replicate cap .uninit⟩),
      st.heap.next + 1⟩ }) fun r => ?_
  exact map_same fun h => rfl

theorem selectU_erase (c : C × List (Nat × Nat)) (n i : Nat) :
    I.selectU c.1 s n i = ((traced I).selectU c s n i).map (fun r => (r.1, r.2.1)) := by
  simp only [traced]
  cases I.selectU c.1 s n i <;> rfl

theorem fromExact_erase : ∀ (left : Nat) (st : MSt (C × List (Nat × Nat)) α) (index acc : Nat),
    fromExact I s left (eraseSt st) index acc =
      (fromExact (traced I) s left st index acc).map (fun r => (eraseSt r.1, r.2))
  | 0, st, index, acc => by
    unfold fromExact
    show (if I.exact = true then _ else _) = Except.map _ (if I.exact = true then _ else _)
    split
    · refine map_bind (selectU_erase I s st.cur _ _) fun mc => ?_
      refine map_same fun mask => map_same fun cap => ?_
      exact makeTerminalNode_erase I s { st with cur := mc.2 } mask cap acc
    · rfl
  | left + 1, st, index, acc => by
    unfold fromExact
    show (if I.exact = true then _ else _) = Except.map _ (if I.exact = true then _ else _)
    split
    · refine map_bind (selectU_erase I s st.cur _ _) fun mc => ?_
      refine map_same fun mask => map_same fun cap => ?_
      simp only [rawNew, Heap.alloc]
      refine map_bind (map_traverse (F := eraseSt)
        (body' := exactBody I.D (I.D - 1 - (left + 1)) st.heap.next acc (fromExact (traced I) s left))
        (fun v i => ?_) [mask]
        ⟨⟨upd st.heap.node st.heap.next (some ⟨.branch, mask, cap, 0, List.replicate cap .uninit⟩),
          st.heap.next + 1⟩, mc.2, st.data, st.keys⟩) fun r => ?_
      · unfold exactBody
        refine map_same fun b => map_same fun k => ?_
        refine map_bind (fromExact_erase left v i k) fun p => ?_
        exact map_same fun h => rfl
      · refine map_same fun e => ?_
        exact map_same fun h => rfl
    · rfl

/-- Forget the recording. -/
def eraseSSt {L : Type} (v : SSt (C × L) α) : SSt C α := ⟨eraseSt v.st, v.nodeMask, v.childs⟩

theorem fromSparse_erase : ∀ (left : Nat) (st : MSt (C × List (Nat × Nat)) α) (index acc : Nat),
    fromSparse I s left (eraseSt st) index acc =
      (fromSparse (traced I) s left st index acc).map (fun r => (eraseSt r.1, r.2))
  | 0, st, index, acc => by
    unfold fromSparse
    refine map_bind (selectU_erase I s st.cur _ _) fun mc => ?_
    refine map_same fun mask => map_same fun cap => ?_
    refine map_bind (makeTerminalNode_erase I s { st with cur := mc.2 } mask cap acc) fun p => ?_
    rfl
  | left + 1, st, index, acc => by
    unfold fromSparse
    refine map_bind (selectU_erase I s st.cur _ _) fun mc => ?_
    refine map_same fun mask => ?_
    refine map_bind (map_traverse (F := eraseSSt)
      (body' := sparseBody I.D (I.D - 1 - (left + 1)) acc (fromSparse (traced I) s left))
      (fun v i => ?_) [mask] ⟨⟨st.heap, mc.2, st.data, st.keys⟩, 0, []⟩) fun v => ?_
    · unfold sparseBody
      refine map_same fun b => map_same fun k => ?_
      refine map_bind (fromSparse_erase left v.st i k) fun p => ?_
      obtain ⟨p1, p2⟩ := p
      cases p2 with
      | none => rfl
      | some c =>
        simp only
        refine map_same fun q => ?_
        show (if v.childs.length < 64 then _ else _) = _
        split <;> rfl
    · show (if v.childs.isEmpty = true then _ else _) = Except.map _ (if v.childs.isEmpty = true then _ else _)
      split
      · rfl
      · exact map_same fun e => rfl

/-- For any implementation of the traits: the recorded run gives the tree of the plain run, errors included. -/
theorem matTrace_erase : materialize I s = (matTrace I s).map Prod.fst := by
  unfold materialize matTrace
  have hn : I.new s = ((traced I).new s).map Prod.fst := by
    simp only [traced]
    cases I.new s <;> rfl
  refine map_bind hn fun c => ?_
  have hr : ∀ st : MSt (C × List (Nat × Nat)) α, fromRoot I s (eraseSt st) =
      (fromRoot (traced I) s st).map (fun r => (eraseSt r.1, r.2)) := by
    intro st
    unfold fromRoot
    show (if I.exact = true then _ else _) = Except.map _ (if I.exact = true then _ else _)
    split
    · exact fromExact_erase I s _ _ _ _
    · refine map_bind (fromSparse_erase I s _ _ _ _) fun p => ?_
      exact map_same fun a => rfl
  exact map_bind (hr ⟨⟨fun _ => none, 0⟩, c, [none], [usizeMod - 1]⟩) fun r => rfl

end

/-! ## The select calls -/

section
variable {S C α : Type} {I : Impl S C α} {s : S} {T : TreeSpec α} {Kr : CursorRel C}
  {M : Nat → Option α}

theorem Src.traced (X : Src I s T Kr M) : Src (traced I) s T (tracedRel Kr) M :=
  ⟨traced_lawful X.L, X.hN, X.h9, X.hc, X.room⟩

theorem makeTerminalNode_cur {st st' : MSt C α} {mask : Word} {cap acc a : Nat}
    (e : makeTerminalNode I s st mask cap acc = .ok (st', a)) : st'.cur = st.cur := by
  unfold makeTerminalNode at e
  simp only at e
  obtain ⟨v, e1, e⟩ := bind_inv e
  obtain ⟨h, e2, e⟩ := bind_inv e
  cases e
  rw [traverseM_eq] at e1
  show v.cur = st.cur
  refine foldlM_keeps (P := fun v : MSt C α => v.cur = st.cur) ?_ _ _ v (by rfl) e1
  intro v i v' hv ev
  unfold terminalBody at ev
  obtain ⟨d, -, ev⟩ := bind_inv ev
  obtain ⟨k, -, ev⟩ := bind_inv ev
  obtain ⟨h, e3, ev⟩ := bind_inv ev
  cases ev
  exact hv

theorem rawPush_nextAddr {h h' : Heap} {k : Kind} {a : Nat} {v : Cell} (e : rawPush h k a v = .ok h') :
    h'.next = h.next := by
  unfold rawPush at e
  obtain ⟨n, e0, e⟩ := bind_inv e
  split at e
  · cases e
  · obtain ⟨cs, e1, e⟩ := bind_inv e
    simp only at e
    split at e
    · cases e; rfl
    · cases e

theorem rawFinalize_nextAddr {h h' : Heap} {k : Kind} {a : Nat} {v : Cell} (e : rawFinalize h k a v = .ok h') :
    h'.next = h.next := by
  unfold rawFinalize at e
  obtain ⟨n, e0, e⟩ := bind_inv e
  split at e
  · cases e
  · obtain ⟨cs, e1, e⟩ := bind_inv e
    simp only at e
    split at e
    · simp only [bind_ok] at e
      split at e
      · cases e; rfl
      · cases e
    · cases e

theorem makeTerminalNode_nextAddr {st st' : MSt C α} {mask : Word} {cap acc a : Nat}
    (e : makeTerminalNode I s st mask cap acc = .ok (st', a)) : st'.heap.next = st.heap.next + 1 := by
  unfold makeTerminalNode at e
  simp only at e
  obtain ⟨v, e1, e⟩ := bind_inv e
  obtain ⟨h, e2, e⟩ := bind_inv e
  cases e
  rw [traverseM_eq] at e1
  show h.next = _
  rw [rawFinalize_nextAddr e2]
  refine foldlM_keeps (P := fun v : MSt C α => v.heap.next = st.heap.next + 1) ?_ _ _ v (by rfl) e1
  intro v i v' hv ev
  unfold terminalBody at ev
  obtain ⟨d, -, ev⟩ := bind_inv ev
  obtain ⟨k, -, ev⟩ := bind_inv ev
  obtain ⟨h, e3, ev⟩ := bind_inv ev
  cases ev
  show h.next = _
  rw [rawPush_nextAddr e3]
  exact hv

/-- A fold that appends to a log. -/
theorem foldlM_log {σ ι κ : Type} {body : σ → Nat → R σ} {P : σ → Prop} {log : σ → List ι} {f : Nat → List κ}
    {g : κ → ι} : ∀ (l : List Nat) (st st' : σ), P st →
    (∀ st i st', i ∈ l → P st → body st i = .ok st' → P st' ∧ log st' = log st ++ (f i).map g) →
    l.foldlM body st = .ok st' → P st' ∧ log st' = log st ++ (l.flatMap f).map g := by
  intro l
  induction l with
  | nil => intro st st' h _ e; cases e; exact ⟨h, by simp⟩
  | cons a l ih =>
    intro st st' h hb e
    rw [List.foldlM_cons] at e
    obtain ⟨s1, e1, e2⟩ := bind_inv e
    obtain ⟨h1, l1⟩ := hb st a s1 (by simp) h e1
    obtain ⟨h2, l2⟩ := ih s1 st' h1 (fun st i st' hi => hb st i st' (by simp [hi])) e2
    exact ⟨h2, by rw [l2, l1]; simp⟩

theorem ones_word (w : Word) (B : Nat → Bool) (h : ∀ j, j < 64 → w.getLsbD j = B j) :
    Mask.ones [w] = (List.range 64).filter B := by
  have := ones_cons w []
  rw [this]
  simp only [Mask.ones, wones, List.length_nil, Nat.mul_zero, List.range_zero, List.filter_nil, List.map_nil,
    List.append_nil]
  apply List.filter_congr
  intro j hj
  exact h j (List.mem_range.1 hj)

theorem Src.select_log (X : Src I s T Kr M) {p : List Nat} {index : Nat} {c : C × List (Nat × Nat)}
    (hv : ValidPath 64 p) (hl : p.length < I.D) (he : Entry T (tracedRel Kr) p index c) :
    ∃ w c', (Hibit.traced I).selectU c s p.length index = .ok ([w], c') ∧
      (∀ j, j < 64 → w.getLsbD j = T.bits p j) ∧ (tracedRel Kr).pos c' p ∧ c'.2 = c.2 ++ [callOf p] := by
  obtain ⟨w, c', e, hw, hpos⟩ := X.traced.select hv hl he
  refine ⟨w, c', e, hw, hpos, ?_⟩
  simp only [Hibit.traced] at e
  obtain ⟨⟨m, c1⟩, -, e⟩ := bind_inv e
  cases e
  simp only [callOf]
  rcases he with ⟨rfl, rfl, -⟩ | ⟨q, rfl, -, -⟩
  · rfl
  · simp

theorem fromExact_log (X : Src I s T Kr M) : ∀ (left : Nat) (p : List Nat) (index acc : Nat)
    (st st' : MSt (C × List (Nat × Nat)) α) (a : Nat), p.length + left + 1 = I.D → ValidPath 64 p →
    Entry T (tracedRel Kr) p index st.cur →
    fromExact (Hibit.traced I) s left st index acc = .ok (st', a) →
    (tracedRel Kr).pos st'.cur p ∧
      st'.cur.2 = st.cur.2 ++ (nodesUnder 64 T.bits (left + 1) p).map callOf ∧
      st'.heap.next = st.heap.next + (nodesUnder 64 T.bits (left + 1) p).length := by
  intro left
  induction left with
  | zero =>
    intro p index acc st st' a hl hv he e
    obtain ⟨w, c', e1, hw, hpos, hlog⟩ := X.select_log hv (by omega) he
    unfold fromExact at e
    split at e
    · rw [show (Hibit.traced I).D - 1 = p.length by show I.D - 1 = _; omega, e1] at e
      simp only [bind_ok, getU, List.getElem?_cons_zero, capOf_eq] at e
      have := makeTerminalNode_cur e
      have hnx := makeTerminalNode_nextAddr e
      simp only at this hnx
      rw [this]
      refine ⟨hpos, ?_, ?_⟩
      · rw [hlog]
        simp [nodesUnder]
      · have : nodesUnder 64 T.bits (0 + 1) p = [p] := by simp [nodesUnder]
        rw [hnx, this]; rfl
    · cases e
  | succ left ih =>
    intro p index acc st st' a hl hv he e
    obtain ⟨w, c', e1, hw, hpos, hlog⟩ := X.select_log hv (by omega) he
    unfold fromExact at e
    split at e
    · simp only at e
      rw [show (Hibit.traced I).D - 1 - (left + 1) = p.length by show I.D - 1 - _ = _; omega, e1] at e
      simp only [bind_ok, getU, List.getElem?_cons_zero, capOf_eq, rawNew_eq, Heap.alloc] at e
      obtain ⟨v, e2, e⟩ := bind_inv e
      obtain ⟨z, -, e⟩ := bind_inv e
      obtain ⟨h, e5, e⟩ := bind_inv e
      cases e
      rw [traverseM_eq] at e2
      have step : ∀ (v : MSt (C × List (Nat × Nat)) α) i v', i ∈ Mask.ones [w] → (tracedRel Kr).pos v.cur p →
          exactBody I.D p.length st.heap.next acc (fromExact (Hibit.traced I) s left) v i = .ok v' →
          (tracedRel Kr).pos v'.cur p ∧
          v'.cur.2 = v.cur.2 ++ (nodesUnder 64 T.bits (left + 1) (p ++ [i])).map callOf ∧
          v'.heap.next = v.heap.next + (nodesUnder 64 T.bits (left + 1) (p ++ [i])).length := by
        intro v i v' hi hP eb
        rw [ones_word w (fun j => T.bits p j) hw, List.mem_filter, List.mem_range] at hi
        unfold exactBody at eb
        obtain ⟨b, -, eb⟩ := bind_inv eb
        obtain ⟨k, -, eb⟩ := bind_inv eb
        obtain ⟨⟨st1, ch⟩, e3, eb⟩ := bind_inv eb
        obtain ⟨h, e4, eb⟩ := bind_inv eb
        cases eb
        obtain ⟨q1, q2, q3⟩ := ih (p ++ [i]) i _ _ _ _ (by simp; omega) (ValidPath.append hv hi.1)
          (.inr ⟨p, rfl, hP, hi.2⟩) e3
        refine ⟨?_, q2, ?_⟩
        · have := X.traced.L.pos_take _ _ p.length q1
          simpa using this
        · show h.next = _
          rw [rawPush_nextAddr e4, q3]
      obtain ⟨h1, h2⟩ := foldlM_log (P := fun v : MSt (C × List (Nat × Nat)) α => (tracedRel Kr).pos v.cur p)
        (log := fun v => v.cur.2) (f := fun x => nodesUnder 64 T.bits (left + 1) (p ++ [x])) (g := callOf)
        _ _ _ hpos (fun v i v' hi hP eb => ⟨(step v i v' hi hP eb).1, (step v i v' hi hP eb).2.1⟩) e2
      obtain ⟨-, h3⟩ := foldlM_log (P := fun v : MSt (C × List (Nat × Nat)) α => (tracedRel Kr).pos v.cur p)
        (log := fun v => List.replicate v.heap.next ())
        (f := fun x => nodesUnder 64 T.bits (left + 1) (p ++ [x])) (g := fun _ => ())
        _ _ _ hpos (fun v i v' hi hP eb => ⟨(step v i v' hi hP eb).1, by
          rw [(step v i v' hi hP eb).2.2, ← List.replicate_append_replicate, List.map_const']⟩) e2
      have h3 := congrArg List.length h3
      refine ⟨h1, ?_, ?_⟩
      · rw [h2, ones_word w (fun j => T.bits p j) hw]
        simp only [hlog]
        conv => rhs; rw [nodesUnder]
        simp
      · show h.next = _
        rw [rawFinalize_nextAddr e5]
        simp only [List.length_replicate, List.length_append, List.length_map,
          ones_word w (fun j => T.bits p j) hw] at h3
        rw [h3]
        conv => rhs; rw [nodesUnder]
        simp only [List.length_cons]
        omega
    · cases e

theorem fromSparse_log (X : Src I s T Kr M) : ∀ (left : Nat) (p : List Nat) (index acc : Nat)
    (st st' : MSt (C × List (Nat × Nat)) α) (o : Option Nat), p.length + left + 1 = I.D → ValidPath 64 p →
    Entry T (tracedRel Kr) p index st.cur →
    fromSparse (Hibit.traced I) s left st index acc = .ok (st', o) →
    (tracedRel Kr).pos st'.cur p ∧
      st'.cur.2 = st.cur.2 ++ (nodesUnder 64 T.bits (left + 1) p).map callOf := by
  intro left
  induction left with
  | zero =>
    intro p index acc st st' a hl hv he e
    obtain ⟨w, c', e1, hw, hpos, hlog⟩ := X.select_log hv (by omega) he
    unfold fromSparse at e
    rw [show (Hibit.traced I).D - 1 = p.length by show I.D - 1 = _; omega, e1] at e
    simp only [bind_ok, getU, List.getElem?_cons_zero, capOf_eq] at e
    obtain ⟨⟨st1, a1⟩, e2, e⟩ := bind_inv e
    cases e
    have := makeTerminalNode_cur e2
    simp only at this
    rw [this]
    refine ⟨hpos, ?_⟩
    rw [hlog]
    simp [nodesUnder]
  | succ left ih =>
    intro p index acc st st' a hl hv he e
    obtain ⟨w, c', e1, hw, hpos, hlog⟩ := X.select_log hv (by omega) he
    unfold fromSparse at e
    simp only at e
    rw [show (Hibit.traced I).D - 1 - (left + 1) = p.length by show I.D - 1 - _ = _; omega, e1] at e
    simp only [bind_ok, getU, List.getElem?_cons_zero] at e
    obtain ⟨v, e2, e⟩ := bind_inv e
    rw [traverseM_eq] at e2
    obtain ⟨h1, h2⟩ := foldlM_log (P := fun v : SSt (C × List (Nat × Nat)) α => (tracedRel Kr).pos v.st.cur p)
      (log := fun v => v.st.cur.2) (f := fun x => nodesUnder 64 T.bits (left + 1) (p ++ [x])) (g := callOf)
      _ _ _ hpos (fun v i v' hi hP eb => by
        rw [ones_word w (fun j => T.bits p j) hw, List.mem_filter, List.mem_range] at hi
        unfold sparseBody at eb
        obtain ⟨b, -, eb⟩ := bind_inv eb
        obtain ⟨k, -, eb⟩ := bind_inv eb
        obtain ⟨⟨st1, ch⟩, e3, eb⟩ := bind_inv eb
        obtain ⟨q1, q2⟩ := ih (p ++ [i]) i _ _ _ _ (by simp; omega) (ValidPath.append hv hi.1)
          (.inr ⟨p, rfl, hP, hi.2⟩) e3
        have hq : (tracedRel Kr).pos st1.cur p := by
          have := X.traced.L.pos_take _ _ p.length q1
          simpa using this
        cases ch with
        | none => cases eb; exact ⟨hq, q2⟩
        | some c =>
          simp only at eb
          obtain ⟨z, -, eb⟩ := bind_inv eb
          split at eb
          · cases eb; exact ⟨hq, q2⟩
          · cases eb) e2
    have hfin : st'.cur = v.st.cur := by
      split at e
      · cases e; rfl
      · obtain ⟨z, -, e⟩ := bind_inv e
        cases e; rfl
    rw [hfin]
    refine ⟨h1, ?_⟩
    rw [h2, ones_word w (fun j => T.bits p j) hw]
    simp only [hlog]
    conv => rhs; rw [nodesUnder]
    simp

/-- `materialize` selects the nodes reached through set bits, each once, depth first. -/
theorem matTrace_log (X : Src I s T Kr M) {t : DT α} {log : List (Nat × Nat)}
    (e : matTrace I s = .ok (t, log)) : log = (nodesUnder 64 T.bits I.D []).map callOf ∧
      (I.exact = true → t.heap.next = log.length) := by
  have hD := X.L.cfg.depth
  unfold matTrace at e
  obtain ⟨c, e1, e⟩ := bind_inv e
  obtain ⟨⟨st, a⟩, e2, e⟩ := bind_inv e
  cases e
  have hc : (tracedRel Kr).inv c ∧ c.2 = [] := by
    obtain ⟨c0, e0, hi⟩ := X.L.new_ok
    simp only [Hibit.traced, e0, bind_ok, pure_eq_ok, Except.ok.injEq] at e1
    subst e1
    exact ⟨hi, rfl⟩
  have he : Entry T (tracedRel Kr) [] 0 c := .inl ⟨rfl, rfl, hc.1⟩
  unfold fromRoot at e2
  have hD' : (Hibit.traced I).D = I.D := rfl
  rw [hD'] at e2
  by_cases hne : I.exact = true
  · rw [if_pos (show (Hibit.traced I).exact = true from hne)] at e2
    have := (fromExact_log X (I.D - 1) [] 0 0 _ _ _ (by simp; omega) ValidPath.nil he e2).2
    rw [show I.D - 1 + 1 = I.D by omega] at this
    refine ⟨by simpa [hc.2] using this.1, fun _ => ?_⟩
    rw [this.2, this.1, hc.2]
    simp
  · rw [if_neg (show ¬ (Hibit.traced I).exact = true from hne)] at e2
    obtain ⟨⟨st1, o⟩, e3, e2⟩ := bind_inv e2
    obtain ⟨a1, -, e2⟩ := bind_inv e2
    cases e2
    have := (fromSparse_log X (I.D - 1) [] 0 0 _ _ _ (by simp; omega) ValidPath.nil he e3).2
    rw [show I.D - 1 + 1 = I.D by omega] at this
    exact ⟨by simpa [hc.2] using this, fun h => absurd h hne⟩

end

/-! ## The allocations -/

/-- Every block allocated so far is still there, and has exactly the cells its mask asks for. -/
structure Trim (h : Heap) : Prop where
  live : ∀ a, (h.node a).isSome = true ↔ a < h.next
  cap : ∀ a n, h.node a = some n → n.cells.length = n.cap ∧ n.cap = popcount n.mask + 1

theorem Trim.alloc {h : Heap} (H : Trim h) {n : Node} (h1 : n.cells.length = n.cap)
    (h2 : n.cap = popcount n.mask + 1) : Trim (h.alloc n).1 := by
  constructor
  · intro a
    simp only [Heap.alloc]
    by_cases e : a = h.next
    · subst e; simp
    · rw [upd_ne _ _ e, H.live a]; omega
  · intro a m hm
    simp only [Heap.alloc] at hm
    by_cases e : a = h.next
    · subst e; rw [upd_same] at hm; cases hm; exact ⟨h1, h2⟩
    · rw [upd_ne _ _ e] at hm; exact H.cap a m hm

theorem Trim.put {h : Heap} (H : Trim h) {a : Nat} {n m : Node} (ha : h.node a = some m)
    (h1 : n.cells.length = m.cells.length) (h2 : n.cap = m.cap) (h3 : n.mask = m.mask) : Trim (h.put a n) := by
  obtain ⟨c1, c2⟩ := H.cap a m ha
  constructor
  · intro b
    simp only [Heap.put]
    by_cases e : b = a
    · subst e
      rw [upd_same, ← H.live b, ha]; simp
    · rw [upd_ne _ _ e]; exact H.live b
  · intro b k hk
    simp only [Heap.put] at hk
    by_cases e : b = a
    · subst e; rw [upd_same] at hk; cases hk
      rw [h1, h2, h3]; exact ⟨c1, c2⟩
    · rw [upd_ne _ _ e] at hk; exact H.cap b k hk

theorem rawPush_trim {h h' : Heap} (H : Trim h) {k : Kind} {a : Nat} {v : Cell}
    (e : rawPush h k a v = .ok h') : Trim h' := by
  unfold rawPush at e
  obtain ⟨n, e0, e⟩ := bind_inv e
  have e0 := unwrapU_inv e0
  split at e
  · cases e
  · obtain ⟨cs, e1, e⟩ := bind_inv e
    obtain ⟨rfl, _⟩ := setU_inv e1
    simp only at e
    split at e
    · cases e
      exact H.put e0 (by simp) rfl rfl
    · cases e

theorem rawFinalize_trim {h h' : Heap} (H : Trim h) {k : Kind} {a : Nat} {v : Cell}
    (e : rawFinalize h k a v = .ok h') : Trim h' := by
  unfold rawFinalize at e
  obtain ⟨n, e0, e⟩ := bind_inv e
  have e0 := unwrapU_inv e0
  split at e
  · cases e
  · obtain ⟨cs, e1, e⟩ := bind_inv e
    obtain ⟨rfl, _⟩ := setU_inv e1
    simp only at e
    split at e
    · simp only [bind_ok] at e
      split at e
      · cases e
        exact H.put e0 (by simp) rfl rfl
      · cases e
    · cases e

theorem popcount_set {w w' : Word} {i : Nat} (hi : i < 64) (h : w.getLsbD i = false)
    (hw : ∀ j, j < 64 → w'.getLsbD j = if j = i then true else w.getLsbD j) : popcount w' = popcount w + 1 := by
  unfold popcount
  rw [range_split hi, List.countP_append, List.countP_append, List.countP_cons, List.countP_cons]
  have e1 : (List.range i).countP (fun j => w'.getLsbD j) = (List.range i).countP (fun j => w.getLsbD j) := by
    apply List.countP_congr
    intro j hj
    rw [List.mem_range] at hj
    rw [hw j (by omega), if_neg (by omega)]
  have e2 : ((List.range (64 - i - 1)).map (· + (i + 1))).countP (fun j => w'.getLsbD j) =
      ((List.range (64 - i - 1)).map (· + (i + 1))).countP (fun j => w.getLsbD j) := by
    apply List.countP_congr
    intro j hj
    rw [List.mem_map] at hj
    obtain ⟨k, hk, rfl⟩ := hj
    rw [List.mem_range] at hk
    rw [hw _ (by omega), if_neg (by omega)]
  rw [e1, e2, hw i hi, if_pos rfl, h]
  simp
  omega

/-- A fold over a list without repetitions: the invariant may speak of what is still to come. -/
theorem foldlM_nodup {σ : Type} {body : σ → Nat → R σ} {P : List Nat → σ → Prop} :
    ∀ (l : List Nat) (st st' : σ), l.Nodup → P l st →
    (∀ i r st st', i ∉ r → i ∈ l → P (i :: r) st → body st i = .ok st' → P r st') →
    l.foldlM body st = .ok st' → P [] st' := by
  intro l
  induction l with
  | nil => intro st st' _ h _ e; cases e; exact h
  | cons a l ih =>
    intro st st' hn h hb e
    rw [List.nodup_cons] at hn
    rw [List.foldlM_cons] at e
    obtain ⟨s1, e1, e2⟩ := bind_inv e
    exact ih s1 st' hn.2 (hb a l st s1 hn.1 (by simp) h e1)
      (fun i r st st' hi hm => hb i r st st' hi (by simp [hm])) e2

section
variable {S C α : Type} {I : Impl S C α} {s : S}

theorem makeTerminalNode_trim {st st' : MSt C α} (H : Trim st.heap) {mask : Word} {acc a : Nat}
    (e : makeTerminalNode I s st mask (popcount mask + 1) acc = .ok (st', a)) : Trim st'.heap := by
  unfold makeTerminalNode at e
  simp only at e
  obtain ⟨v, e1, e⟩ := bind_inv e
  obtain ⟨h, e2, e⟩ := bind_inv e
  cases e
  rw [traverseM_eq] at e1
  refine rawFinalize_trim ?_ e2
  refine foldlM_keeps (P := fun st : MSt C α => Trim st.heap) ?_ _ _ _ ?_ e1
  · intro v i v' hv ev
    unfold terminalBody at ev
    obtain ⟨d, -, ev⟩ := bind_inv ev
    obtain ⟨k, -, ev⟩ := bind_inv ev
    obtain ⟨h, e3, ev⟩ := bind_inv ev
    cases ev
    exact rawPush_trim (h := v.heap) hv e3
  · exact H.alloc (by simp) rfl

theorem fromExact_trim : ∀ (left : Nat) (st st' : MSt C α) (index acc a : Nat),
    Trim st.heap → fromExact I s left st index acc = .ok (st', a) → Trim st'.heap := by
  intro left
  induction left with
  | zero =>
    intro st st' index acc a H e
    unfold fromExact at e
    split at e
    · obtain ⟨⟨m, c⟩, -, e⟩ := bind_inv e
      obtain ⟨mask, -, e⟩ := bind_inv e
      simp only [capOf_eq, bind_ok] at e
      exact makeTerminalNode_trim (st := { st with cur := c }) H e
    · cases e
  | succ left ih =>
    intro st st' index acc a H e
    unfold fromExact at e
    split at e
    · obtain ⟨⟨m, c⟩, -, e⟩ := bind_inv e
      obtain ⟨mask, -, e⟩ := bind_inv e
      simp only [capOf_eq, bind_ok] at e
      obtain ⟨v, e1, e⟩ := bind_inv e
      obtain ⟨z, -, e⟩ := bind_inv e
      obtain ⟨h, e2, e⟩ := bind_inv e
      cases e
      rw [traverseM_eq] at e1
      refine rawFinalize_trim ?_ e2
      refine foldlM_keeps (P := fun st : MSt C α => Trim st.heap) ?_ _ _ _ ?_ e1
      · intro v i v' hv ev
        unfold exactBody at ev
        obtain ⟨d, -, ev⟩ := bind_inv ev
        obtain ⟨k, -, ev⟩ := bind_inv ev
        obtain ⟨⟨st1, ch⟩, e3, ev⟩ := bind_inv ev
        obtain ⟨h, e4, ev⟩ := bind_inv ev
        cases ev
        exact rawPush_trim (ih _ _ _ _ _ hv e3) e4
      · exact H.alloc (by simp) rfl
    · cases e

theorem fromSparse_trim : ∀ (left : Nat) (st st' : MSt C α) (index acc : Nat) (o : Option Nat),
    Trim st.heap → fromSparse I s left st index acc = .ok (st', o) → Trim st'.heap := by
  intro left
  induction left with
  | zero =>
    intro st st' index acc o H e
    unfold fromSparse at e
    obtain ⟨⟨m, c⟩, -, e⟩ := bind_inv e
    obtain ⟨mask, -, e⟩ := bind_inv e
    simp only [capOf_eq, bind_ok] at e
    obtain ⟨⟨st1, a⟩, e1, e⟩ := bind_inv e
    cases e
    exact makeTerminalNode_trim (st := { st with cur := c }) H e1
  | succ left ih =>
    intro st st' index acc o H e
    unfold fromSparse at e
    obtain ⟨⟨m, c⟩, -, e⟩ := bind_inv e
    obtain ⟨mask, -, e⟩ := bind_inv e
    obtain ⟨v, e1, e⟩ := bind_inv e
    rw [traverseM_eq] at e1
    have hv := foldlM_nodup (P := fun (r : List Nat) (v : SSt C α) => Trim v.st.heap ∧ v.childs.length ≤ 64 ∧
      popcount v.nodeMask = v.childs.length ∧ ∀ j ∈ r, v.nodeMask.getLsbD j = false) _ _ _
      ((ones_pairwise [mask]).imp (fun h => Nat.ne_of_lt h))
      ⟨H, by simp, (show popcount (0 : Word) = 0 by decide), fun j _ => by simp⟩ (fun i r v v' hi hm hv ev => by
        obtain ⟨hv1, hv2, hv3, hv4⟩ := hv
        have hi64 : i < 64 := by
          rw [ones_word mask (fun j => mask.getLsbD j) (fun _ _ => rfl), List.mem_filter, List.mem_range] at hm
          exact hm.1
        unfold sparseBody at ev
        obtain ⟨d, -, ev⟩ := bind_inv ev
        obtain ⟨k, -, ev⟩ := bind_inv ev
        obtain ⟨⟨st1, ch⟩, e3, ev⟩ := bind_inv ev
        have h1 := ih _ _ _ _ _ hv1 e3
        cases ch with
        | none => cases ev; exact ⟨h1, hv2, hv3, fun j hj => hv4 j (by simp [hj])⟩
        | some x =>
          simp only at ev
          obtain ⟨w', b1, b2⟩ := setBitUnchecked_spec true v.nodeMask hi64
          rw [b1] at ev
          simp only [bind_ok] at ev
          split at ev
          · cases ev
            refine ⟨h1, by simp; omega, ?_, fun j hj => ?_⟩
            · rw [popcount_set hi64 (hv4 i (by simp)) b2, hv3]; simp
            · have hne : j ≠ i := fun e => hi (e ▸ hj)
              by_cases hj64 : j < 64
              · rw [b2 j hj64, if_neg hne]; exact hv4 j (by simp [hj])
              · exact BitVec.getLsbD_of_ge _ _ (by omega)
          · cases ev) e1
    obtain ⟨hv1, hv2, hv3, -⟩ := hv
    split at e
    · cases e; exact hv1
    · obtain ⟨q, -, e⟩ := bind_inv e
      cases e
      refine Trim.alloc hv1 ?_ ?_
      · simp only [List.length_append, List.length_singleton]; omega
      · simp only [hv3]; omega

/-- For any implementation of the traits. -/
theorem materialize_trim {t : DT α} (e : materialize I s = .ok t) : Trim t.heap := by
  unfold materialize fromRoot at e
  obtain ⟨c, -, e⟩ := bind_inv e
  have h0 : Trim ⟨fun _ => none, 0⟩ := ⟨fun a => by simp, fun a n h => by cases h⟩
  obtain ⟨⟨st, a⟩, e1, e⟩ := bind_inv e
  cases e
  split at e1
  · exact fromExact_trim (I := I) (s := s) _ _ _ _ _ _ h0 e1
  · obtain ⟨⟨st1, o⟩, e2, e1⟩ := bind_inv e1
    obtain ⟨a', -, e1⟩ := bind_inv e1
    cases e1
    exact fromSparse_trim (I := I) (s := s) _ _ _ _ _ _ h0 e2

end

end Hibit.Dense
