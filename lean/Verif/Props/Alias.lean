import Verif.Alias.Mat
import Verif.Alias.Keep
import Verif.Props.Trees
/-!
# C88: DenseTree obeys Rust's aliasing rules

The functions of DenseTree with every reference they make into a node, under Stacked Borrows (`Alias/Model`): an access through
a reference that has been invalidated, or the invalidation of a reference passed to a function before it returns, is undefined
behaviour (`Err.ub`). A result `.ok` therefore says that there was none.
-/
namespace Hibit.Props
open Hibit Hibit.Dense

section
variable {α : Type}

theorem alias_run {ex : List Nat → Prop} {D : Nat} (h1 : 1 ≤ D) (h9 : D ≤ 9) : ∀ (ops : List (Op α)) (t : DT α)
    (M : Nat → Option α) (v : Alias.Vecs α) (z : Alias.St), DRep ex D t M → Alias.Holds t v z → (∀ op ∈ ops, op.OkDepth D) →
    (∀ op ∈ ops, op.InRange (64 ^ D)) → Bounded (64 ^ D) (2 ^ 32) M ops →
    ∃ t' v' z', DRep ex D t' (specRun M ops).1 ∧ Alias.Holds t' v' z' ∧
      Alias.run D v z ops = .ok (v', (specRun M ops).2, z') := by
  intro ops
  induction ops with
  | nil => intro t M v z R hh _ _ _; exact ⟨t, v, z, R, hh, rfl⟩
  | cons op ops ih =>
    intro t M v z R hh h2 hr hb
    have hb' : card (64 ^ D) (op.spec M).1 < 2 ^ 32 := by
      have := hb.2
      cases ops with
      | nil => exact this
      | cons o os => exact this.1
    obtain ⟨t1, e1, R1⟩ := step_spec R (h2 op (by simp)) h9 (hr op (by simp)) hb'
    obtain ⟨v1, z1, a1, hh1⟩ := Alias.step_ok R h1 h9 hh (hr op (by simp)) e1
    obtain ⟨t2, v2, z2, R2, hh2, a2⟩ := ih t1 _ v1 z1 R1 hh1 (fun o ho => h2 o (by simp [ho])) (fun o ho => hr o (by simp [ho]))
      hb.2
    refine ⟨t2, v2, z2, R2, hh2, ?_⟩
    simp only [Alias.run, a1, bind_ok, a2, pure_eq_ok]
    rfl

theorem alias_drop {D : Nat} (h1 : 1 ≤ D) {t : DT α} {M : Nat → Option α} (R : DRep AllNodes D t M) {v : Alias.Vecs α}
    {z : Alias.St} (hh : Alias.Holds t v z) : ∃ vs z', Alias.dropImpl D v z = .ok (vs, z') ∧
      List.Perm vs (valuesOf (64 ^ D) M) ∧ ∀ a, z'.heap.node a = none := by
  obtain ⟨vs, h, e, hp, hn⟩ := dropImpl_spec R h1
  obtain ⟨z', e', hz⟩ := Alias.dropImpl_ok hh e
  exact ⟨vs, z', e', hp, fun a => by rw [hz]; exact hn a⟩

/-- **C88**: every supported history of a DenseTree, from its creation to its drop, makes no access through an invalidated
reference: with all borrows checked each operation still returns what it returns on the map, and dropping the tree frees every
node and drops exactly the stored values. -/
theorem C88_aliasing {D : Nat} {ops : List (Op α)} (h : DenseHistory D ops) :
    ∃ v0 z0 v z vs z', Alias.default α D = .ok (v0, z0) ∧
      Alias.run D v0 z0 ops = .ok (v, (specRun emptyMap ops).2, z) ∧
      Alias.dropImpl D v z = .ok (vs, z') ∧ List.Perm vs (valuesOf (64 ^ D) (specRun emptyMap ops).1) ∧
      ∀ a, z'.heap.node a = none := by
  obtain ⟨t0, e0, R0⟩ := default_rep α h.depth_pos h.depth_le
  obtain ⟨v0, z0, a0, hh0⟩ := Alias.default_ok e0
  obtain ⟨t, v, z, R, hh, a⟩ := alias_run h.depth_pos h.depth_le ops t0 emptyMap v0 z0 R0 hh0 h.okDepth h.inRange h.bounded
  obtain ⟨vs, z', e, hp, hn⟩ := alias_drop h.depth_pos R hh
  exact ⟨v0, z0, v, z, vs, z', a0, a, e, hp, hn⟩

/-- The concrete history of C11, run with borrows and then dropped. -/
example : DenseHistory 2 exOps ∧ (do
    let (v0, z0) ← Alias.default Nat 2
    let (v, os, z) ← Alias.run 2 v0 z0 exOps
    let (vs, _) ← Alias.dropImpl 2 v z
    return (os.map (·.1), vs) : R _) =
      .ok ([none, none, none, some 7, none, some 1, none, none, some 56], [56, 72, 202]) :=
  ⟨exOps_history, by decide +kernel⟩

/-- The memory of a tree with arbitrary references into it still on the stacks. -/
def withBorrows (t : DT α) (stk : Alias.Place → List Alias.Item) (next : Nat) : Alias.Vecs α × Alias.St :=
  (⟨t.data, t.keys⟩, ⟨t.heap, t.root, stk, next⟩)

theorem holds_any (t : DT α) (stk : Alias.Place → List Alias.Item) (next : Nat) :
    Alias.Holds t (withBorrows t stk next).1 (withBorrows t stk next).2 := ⟨rfl, rfl, rfl, rfl⟩

/-- **C88**, for any references left behind: after any supported history the next operations succeed and return what they
return on the map whatever borrows of the tree's nodes are still on the stacks (of readers that are done, or of an operation that
panicked), and so does the drop. -/
theorem C88_any_borrows {D : Nat} {ops more : List (Op α)} (h : DenseHistory D (ops ++ more)) {t : DT α}
    (hr : DenseReached D ops t) (stk : Alias.Place → List Alias.Item) (next : Nat) :
    ∃ v z vs z', Alias.run D (withBorrows t stk next).1 (withBorrows t stk next).2 more =
        .ok (v, (specRun (specRun emptyMap ops).1 more).2, z) ∧
      Alias.dropImpl D v z = .ok (vs, z') ∧
      List.Perm vs (valuesOf (64 ^ D) (specRun (specRun emptyMap ops).1 more).1) ∧ ∀ a, z'.heap.node a = none := by
  obtain ⟨R, hb⟩ : DRep AllNodes D t (specRun emptyMap ops).1 ∧ Bounded (64 ^ D) (2 ^ 32) (specRun emptyMap ops).1 more := by
    obtain ⟨t0, e0, R0⟩ := default_rep α h.depth_pos h.depth_le
    obtain ⟨u0, outs, f0, f1⟩ := hr
    rw [e0] at f0
    cases f0
    have key : ∀ (ops : List (Op α)) (u u' : DT α) (M : Nat → Option α) (os : List (Option α × List α)), DRep AllNodes D u M →
        (∀ op ∈ ops ++ more, op.OkDepth D) → (∀ op ∈ ops ++ more, op.InRange (64 ^ D)) →
        Bounded (64 ^ D) (2 ^ 32) M (ops ++ more) → run D u ops = .ok (u', os) →
        DRep AllNodes D u' (specRun M ops).1 ∧ Bounded (64 ^ D) (2 ^ 32) (specRun M ops).1 more := by
      intro ops
      induction ops with
      | nil => intro u u' M os R _ _ hb e; cases e; exact ⟨R, hb⟩
      | cons op ops ih =>
        intro u u' M os R h2 hr hb e
        have hb' : card (64 ^ D) (op.spec M).1 < 2 ^ 32 := by
          have : Bounded (64 ^ D) (2 ^ 32) (op.spec M).1 (ops ++ more) := hb.2
          cases hx : ops ++ more with
          | nil => rw [hx] at this; exact this
          | cons o os => rw [hx] at this; exact this.1
        obtain ⟨t1, e1, R1⟩ := step_spec R (h2 op (by simp)) h.depth_le (hr op (by simp)) hb'
        simp only [run, e1, bind_ok] at e
        obtain ⟨⟨u2, os2⟩, e2, e⟩ := bind_inv e
        cases e
        exact ih t1 _ _ _ R1 (fun o ho => h2 o (List.mem_cons_of_mem _ ho)) (fun o ho => hr o (List.mem_cons_of_mem _ ho)) hb.2 e2
    exact key ops t0 t emptyMap outs R0 h.okDepth h.inRange h.bounded f1
  obtain ⟨t', v, z, R', hh, a⟩ := alias_run h.depth_pos h.depth_le more t _ _ _ R (holds_any t stk next)
    (fun op ho => h.okDepth op (List.mem_append_right _ ho)) (fun op ho => h.inRange op (List.mem_append_right _ ho)) hb
  obtain ⟨vs, z', e, hp, hn⟩ := alias_drop h.depth_pos R' hh
  exact ⟨v, z, vs, z', a, e, hp, hn⟩

/-- **C88**, readers: any sequence of cursor calls and `get`s by any number of readers of one tree that is defined without
borrows gives the same answers with them, whatever is borrowed at the start, and changes no node. In particular the iterations
and lookups of C27–C41, which make only calls that are defined. -/
theorem C88_reads {D : Nat} (t : DT α) (stk : Alias.Place → List Alias.Item) (next : Nat) {cs cs' : Nat → Dense.Cursor}
    {l : List Alias.Call} {as : List (Alias.Answer α)} (e : Alias.plainCalls D t cs l = .ok (as, cs')) :
    ∃ z, Alias.calls D (withBorrows t stk next).1 cs (withBorrows t stk next).2 l = .ok (as, cs', z) ∧
      z.heap = t.heap ∧ z.root = t.root := by
  obtain ⟨z, e1, s⟩ := Alias.calls_ok l (holds_any t stk next) e
  exact ⟨z, e1, s.heap, s.root⟩

/-- **C88**, readers do not disturb each other: whatever shared references into the nodes, of other readers or of a call in
progress, could be read through before such calls can be read through after them. -/
theorem C88_readers_keep {D : Nat} {v : Alias.Vecs α} {cs cs' : Nat → Dense.Cursor} {z z' : Alias.St} {l : List Alias.Call}
    {as : List (Alias.Answer α)} (e : Alias.calls D v cs z l = .ok (as, cs', z')) {pl : Alias.Place} {i : Alias.Item}
    (hi : i ∈ z.stk pl) (hp : i.perm = .shared) :
    i ∈ z'.stk pl ∧ ∃ z'', Alias.touch pl .read (some i.tag) z' = .ok z'' :=
  have h := Alias.calls_keep l e pl i hi hp
  ⟨h, Alias.touch_shared h⟩

/-- Two cursors of one tree, used alternately. -/
def exCalls : List Alias.Call :=
  [.select 0 0 0, .select 1 0 0, .select 0 1 0, .selectU 1 1 1, .data 0 5, .data 1 5, .dataU 1 0, .get 200, .data 0 6]

def answerNat : Alias.Answer Nat → Option Nat
  | .mask _ => none
  | .data x => x

/-- They are defined on the concrete tree. -/
example : (Alias.plainCalls 2 exD (fun _ => [none]) exCalls).map (fun r => r.1.map answerNat) =
    .ok [none, none, none, none, some 56, none, some 72, some 202, none] := by decide +kernel

/-- A `&NodeHeader` of the root taken before those calls is read after them, where an insertion into the root would have
invalidated it. -/
example : (do
    let (t, z) ← Alias.header exD.root (withBorrows exD (fun _ => []) 0).2
    let (_, _, z) ← Alias.calls 2 (withBorrows exD (fun _ => []) 0).1 (fun _ => [none]) z exCalls
    let (l, _) ← Alias.readLen exD.root t z
    return l : R Nat) = .ok 4 ∧
  (do
    let (t, z) ← Alias.header exD.root (withBorrows exD (fun _ => []) 0).2
    let (_, _, z) ← Alias.run 2 (withBorrows exD (fun _ => []) 0).1 z [.insert 1000 7]
    let (l, _) ← Alias.readLen exD.root t z
    return l : R Nat) = .error .ub := by
  refine ⟨?_, ?_⟩ <;> decide +kernel

variable {S C : Type} {I : Impl S C α} {s : S} {M : Nat → Option α}

/-- **C88**, `materialize`: whenever building a DenseTree from a tree succeeds, no reference into the nodes under construction is
used after it was invalidated, and the result is the same. -/
theorem C88_materialize_any {t : DT α} (e : Dense.materialize I s = .ok t) :
    ∃ v z, Alias.materialize I s = .ok (v, z) ∧ v.data = t.data ∧ v.keys = t.keys ∧ z.heap = t.heap ∧ z.root = t.root := by
  obtain ⟨v, z, e1, hh⟩ := Alias.materialize_ok e
  exact ⟨v, z, e1, hh.data, hh.keys, hh.heap, hh.root⟩

/-- **C88**, `materialize` and after: a tree obeying the contract with exact hierarchy, 64-bit masks, depth at most 9 and fewer
than 2^32 elements is materialized without an aliasing violation, and so run every further supported history of the result and
its drop, with the results of the map. -/
theorem C88_materialize (h : IsTree I s M) (hN : I.N = 1) (hex : I.exact = true) (h9 : I.D ≤ 9)
    (hroom : card (64 ^ I.D) M < 2 ^ 32) {ops : List (Op α)} (hl : LaterHistory I.D (restrict (64 ^ I.D) M) ops) :
    ∃ v0 z0 v z vs z', Alias.materialize I s = .ok (v0, z0) ∧
      Alias.run I.D v0 z0 ops = .ok (v, (specRun (restrict (64 ^ I.D) M) ops).2, z) ∧
      Alias.dropImpl I.D v z = .ok (vs, z') ∧
      List.Perm vs (valuesOf (64 ^ I.D) (specRun (restrict (64 ^ I.D) M) ops).1) ∧ ∀ a, z'.heap.node a = none := by
  have h' := h
  obtain ⟨T, K, L, hc⟩ := h'
  have h1 := L.cfg.depth
  have hW : width I.N = 64 := by rw [hN]; rfl
  have X : Src I s T K (restrict (64 ^ I.D) M) := by
    refine ⟨L, hN, h9, fun i hi => ?_, by rw [card_restrict]; exact hroom⟩
    have := hc i (by rw [hW]; exact hi)
    rw [hW] at this
    rw [this, restrict, if_pos hi]
  obtain ⟨t, e, R, -, -⟩ := materialize_exact X hex (fun k hk => by simp [restrict, Nat.not_lt.2 hk])
  obtain ⟨v0, z0, e1, hh⟩ := Alias.materialize_ok e
  obtain ⟨t', v, z, R', hh', a⟩ := alias_run h1 h9 ops t _ v0 z0 R hh (fun op hop => by
    cases op with
    | remove k => exact hl.removeDepth k hop
    | _ => exact h1) hl.inRange hl.bounded
  obtain ⟨vs, z', ed, hp, hn⟩ := alias_drop h1 R' hh'
  exact ⟨v0, z0, v, z, vs, z', e1, a, ed, hp, hn⟩

/-- A union materialized with borrows, changed and dropped. -/
example : (do
    let (v, z) ← Alias.materialize exUnion (exD, exU)
    let (v, _, z) ← Alias.run 2 v z [.remove 64, .insert 300 (none, some 9)]
    let (vs, _) ← Alias.dropImpl 2 v z
    return vs : R _) =
    .ok [(some 56, some 2), (none, some 3), (some 202, none), (none, some 9)] := by decide +kernel

end

/-! ## What the model rejects

Five wrong ways to write the code of node.rs. -/

/-- The children reached from the header reference (`(header as *mut NodeHeader).add(1)`) instead of the node's pointer: the
reference covers the header only. -/
def childViaHeader (p : Ptr) (index : Nat) (z : Alias.St) : R (Cell × Alias.St) := do
  let (t, z) ← Alias.header p z
  let (d, z) ← Alias.denseIdx p t index z
  Alias.readCell p d t z

/-- A `&NodeHeader` used after a `header_mut()` wrote through another reference. -/
def headerAfterWrite (p : Ptr) (z : Alias.St) : R (Nat × Alias.St) := do
  let (t, z) ← Alias.header p z
  let (t', z) ← Alias.headerMut p z
  let z ← Alias.writeLen p t' 1 z
  Alias.readLen p t z

/-- The `&mut` to a child used after the same child was read through the node's pointer. -/
def slotAfterRead (p : Ptr) (index : Nat) (z : Alias.St) : R (Cell × Alias.St) := do
  let (d, t, z) ← Alias.getChildMut p index z
  let (_, z) ← Alias.getChild p index z
  let z ← Alias.writeCell p d t .uninit z
  return (.uninit, z)

/-- The header changed through `header()`, a shared reference. -/
def writeViaShared (p : Ptr) (z : Alias.St) : R (Nat × Alias.St) := do
  let (t, z) ← Alias.header p z
  let z ← Alias.writeLen p t 1 z
  return (1, z)

/-- A `&mut header.mask` used after the mask was read through `header` itself. -/
def maskAfterRead (p : Ptr) (z : Alias.St) : R (Nat × Alias.St) := do
  let (t, z) ← Alias.headerMut p z
  let (t', z) ← Alias.retag .uniq t [.node p .mask] z
  let (_, z) ← Alias.readMask p t z
  let z ← Alias.writeMask p t' 0 z
  return (0, z)

/-- A function given `&mut header.mask` that writes the mask through the node's own pointer and no longer uses its argument. `prot` is
whether the end of the call is checked: nothing else is wrong with it. -/
def maskBesideArgument (prot : Bool) (p : Ptr) (z : Alias.St) : R (Nat × Alias.St) := do
  let (t, z) ← Alias.headerMut p z
  let (u, z) ← Alias.retag .uniq t [.node p .mask] z
  let z ← Alias.writeMask p none 0 z
  if prot then Alias.leave u [.node p .mask] z
  return (0, z)

/-- A `&self` method of the header during which the header is changed through the node's pointer. -/
def lenBesideSelf (prot : Bool) (p : Ptr) (z : Alias.St) : R (Nat × Alias.St) := do
  let (t, z) ← Alias.header p z
  let (u, z) ← Alias.retag .shared t (Alias.hdr p) z
  let (l, z) ← Alias.readLen p u z
  let z ← Alias.writeLen p none l z
  if prot then Alias.leave u (Alias.hdr p) z
  return (l, z)

/-- All seven are undefined behaviour in the model, on a tree just created, on which the right code runs; the last two only because a
function's reference arguments must stay valid until it returns. -/
theorem C88_rejects :
    (do let (_, z) ← Alias.default Nat 2; let (c, _) ← childViaHeader z.root 0 z; return c : R Cell) = .error .ub ∧
    (do let (_, z) ← Alias.default Nat 2; let (l, _) ← headerAfterWrite z.root z; return l : R Nat) = .error .ub ∧
    (do let (_, z) ← Alias.default Nat 2; let (c, _) ← slotAfterRead z.root 0 z; return c : R Cell) = .error .ub ∧
    (do let (_, z) ← Alias.default Nat 2; let (l, _) ← writeViaShared z.root z; return l : R Nat) = .error .ub ∧
    (do let (_, z) ← Alias.default Nat 2; let (l, _) ← maskAfterRead z.root z; return l : R Nat) = .error .ub ∧
    (do let (_, z) ← Alias.default Nat 2; let (l, _) ← maskBesideArgument true z.root z; return l : R Nat) = .error .ub ∧
    (do let (_, z) ← Alias.default Nat 2; let (l, _) ← maskBesideArgument false z.root z; return l : R Nat) = .ok 0 ∧
    (do let (_, z) ← Alias.default Nat 2; let (l, _) ← lenBesideSelf true z.root z; return l : R Nat) = .error .ub ∧
    (do let (_, z) ← Alias.default Nat 2; let (l, _) ← lenBesideSelf false z.root z; return l : R Nat) = .ok 1 ∧
    (do let (_, z) ← Alias.default Nat 2; let (c, _) ← Alias.getChild z.root 0 z; return c : R Cell) = .ok (.ptr (.stat 8)) := by
  refine ⟨?_, ?_, ?_, ?_, ?_, ?_, ?_, ?_, ?_, ?_⟩ <;> decide +kernel

end Hibit.Props
