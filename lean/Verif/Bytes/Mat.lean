import Verif.Bytes.Tree
import Verif.Dense.MatLemmas
/-!
# `materialize` over byte memory

The functions of `Verif/Dense/Materialize.lean` (src/dense_tree/from.rs) again, with nodes as bytes.
-/
namespace Hibit.Bytes
open Hibit Hibit.Dense

/-- node.rs:240-252 `raw_new`. -/
def rawNew (h : BHeap) (k : Kind) (cap : Nat) (mask : Word) : R (BHeap × Nat) := do
  let b := fresh (layoutSize k cap)
  let b ← putMask b mask
  let b ← putCap b cap
  let b ← putLen b 0
  return h.alloc b

/-- node.rs:261-274 `raw_push_within_capacity`. -/
def rawPush (h : BHeap) (k : Kind) (a : Nat) (value : Cell) : R BHeap := do
  let (a, b) ← bytesMut h (.heap a)
  let len ← getLen b
  let b ← putChild k b len value
  let len ← getLen b
  let len ← if len + 1 < 256 then Except.ok (len + 1) else .error .panic
  let b ← putLen b len
  return h.put a b

/-- node.rs:277-292 `raw_finalize`. -/
def rawFinalize (h : BHeap) (k : Kind) (a : Nat) (emptyChild : Cell) : R BHeap := do
  let (a, b) ← bytesMut h (.heap a)
  let len ← getLen b
  let b ← putChild k b len emptyChild
  let len ← getLen b
  let len ← if len + 1 < 256 then Except.ok (len + 1) else .error .panic
  let b ← putLen b len
  let len ← getLen b
  let cap ← getCap b
  if len ≤ cap then return h.put a b else .error .panic

/-- node.rs:211-237 `from_parts`, for `T = NodePtr`; `len as u8`, `(len + 1) as u8`. -/
def fromParts (h : BHeap) (mask : Word) (childs : List Ptr) (emptyChild : Ptr) : R (BHeap × Nat) := do
  let len := childs.length
  let cap := (len + 1) % 256
  let b := fresh (layoutSize .branch cap)
  let b ← putMask b mask
  let b ← putCap b cap
  let b ← putLen b (len % 256)
  let b ← store b (childOff .branch 0) (tsize .branch) (childs.flatMap ptrBytes)
  let b ← putChild .branch b len (.ptr emptyChild)
  return h.alloc b

/-- As `Dense.MSt`. -/
structure MSt (C α : Type) where
  heap : BHeap
  cur : C
  data : List (Option α)
  keys : List Nat

section
variable {S C α : Type}

/-- from.rs:160-165 `push_fn`. -/
def pushData (st : MSt C α) (key : Nat) (value : α) : MSt C α × Nat :=
  ({ st with data := st.data ++ [some value], keys := st.keys ++ [key] }, st.data.length % 2 ^ 32)

/-- from.rs:40-47. -/
def terminalBody (I : Impl S C α) (s : S) (a keyAcc : Nat) (st : MSt C α) (index : Nat) :
    R (MSt C α) := do
  let data ← I.curDataU st.cur s index
  let key ← addUsize keyAcc index
  let (st, dataIndex) := pushData st key data
  let h ← rawPush st.heap .term a (.idx dataIndex)
  return { st with heap := h }

/-- from.rs:28-50 `make_terminal_node`. -/
def makeTerminalNode (I : Impl S C α) (s : S) (st : MSt C α) (mask : Word) (cap keyAcc : Nat) :
    R (MSt C α × Nat) := do
  let (h, a) ← rawNew st.heap .term cap mask
  let st ← traverseM (terminalBody I s a keyAcc) { st with heap := h } [mask]
  let h ← rawFinalize st.heap .term a (.idx 0)
  return ({ st with heap := h }, a)

/-- from.rs:77-90. -/
def exactBody (D n a keyAcc : Nat) (rec : MSt C α → Nat → Nat → R (MSt C α × Nat))
    (st : MSt C α) (index : Nat) : R (MSt C α) := do
  let b ← blockStart D n index
  let keyAcc ← addUsize keyAcc b
  let (st, child) ← rec st index keyAcc
  let h ← rawPush st.heap .branch a (.ptr (.heap child))
  return { st with heap := h }

/-- from.rs:53-94 `from_exact_sparse_hierarchy`. -/
def fromExact (I : Impl S C α) (s : S) : (left : Nat) → MSt C α → (index keyAcc : Nat) →
    R (MSt C α × Nat)
  | 0, st, index, keyAcc => do
    if I.exact = true then
      let (m, c) ← I.selectU st.cur s (I.D - 1) index
      let mask ← getU m 0
      let cap ← capOf mask
      makeTerminalNode I s { st with cur := c } mask cap keyAcc
    else .error .panic
  | left + 1, st, index, keyAcc => do
    if I.exact = true then
      let n := I.D - 1 - (left + 1)
      let (m, c) ← I.selectU st.cur s n index
      let mask ← getU m 0
      let cap ← capOf mask
      let (h, a) ← rawNew st.heap .branch cap mask
      let st ← traverseM (exactBody I.D n a keyAcc (fromExact I s left))
        { st with heap := h, cur := c } [mask]
      let e ← emptyNode (n + 1) I.D
      let h ← rawFinalize st.heap .branch a (.ptr e)
      return ({ st with heap := h }, a)
    else .error .panic

/-- Local variables of from.rs:121-131. -/
structure SSt (C α : Type) where
  st : MSt C α
  nodeMask : Word
  childs : List Ptr

/-- from.rs:124-131. -/
def sparseBody (D n keyAcc : Nat) (rec : MSt C α → Nat → Nat → R (MSt C α × Option Nat))
    (v : SSt C α) (index : Nat) : R (SSt C α) := do
  let b ← blockStart D n index
  let keyAcc ← addUsize keyAcc b
  let (st, child) ← rec v.st index keyAcc
  match child with
  | some c =>
    let (_, nodeMask) ← setBitUnchecked true v.nodeMask index
    if v.childs.length < 64 then
      return ⟨st, nodeMask, v.childs ++ [.heap c]⟩
    else .error .ub
  | none => return { v with st := st }

/-- from.rs:97-137 `from_sparse_hierarchy`. -/
def fromSparse (I : Impl S C α) (s : S) : (left : Nat) → MSt C α → (index keyAcc : Nat) →
    R (MSt C α × Option Nat)
  | 0, st, index, keyAcc => do
    let (m, c) ← I.selectU st.cur s (I.D - 1) index
    let mask ← getU m 0
    let cap ← capOf mask
    let (st, a) ← makeTerminalNode I s { st with cur := c } mask cap keyAcc
    return (st, some a)
  | left + 1, st, index, keyAcc => do
    let n := I.D - 1 - (left + 1)
    let (m, c) ← I.selectU st.cur s n index
    let mask ← getU m 0
    let v ← traverseM (sparseBody I.D n keyAcc (fromSparse I s left))
      ⟨{ st with cur := c }, 0, []⟩ [mask]
    if v.childs.isEmpty then return (v.st, none)
    else
      let e ← emptyNode (n + 1) I.D
      let (h, a) ← fromParts v.st.heap v.nodeMask v.childs e
      return ({ v.st with heap := h }, some a)

/-- from.rs:169-178. -/
def fromRoot (I : Impl S C α) (s : S) (st : MSt C α) : R (MSt C α × Nat) := do
  if I.exact = true then fromExact I s (I.D - 1) st 0 0
  else
    let (st, a) ← fromSparse I s (I.D - 1) st 0 0
    let a ← unwrapU a
    return (st, a)

/-- from.rs:153-181, called by hibit_tree.rs:224-229 `materialize`, in a program whose memory is `h`. -/
def materialize (I : Impl S C α) (s : S) (h : BHeap) : R (BT α) := do
  let cur ← I.new s
  let (st, a) ← fromRoot I s ⟨h, cur, [none], [usizeMod - 1]⟩
  return ⟨st.heap, .heap a, st.data, st.keys⟩

end

/-! ## Simulation -/

variable {ρ : Ren} {F : Mem} {h : Heap} {bh : BHeap}

/-- The header written into fresh memory. -/
theorem header_ok (k : Kind) {cap len : Nat} (m : Word) (hc : cap < 256) (hl : len < 256) :
    ∃ b1 b2 b3, putMask (fresh (layoutSize k cap)) m = .ok b1 ∧ putCap b1 cap = .ok b2 ∧
      putLen b2 len = .ok b3 ∧ NodeRep ρ ⟨k, m, cap, len, List.replicate cap .uninit⟩ b3 := by
  have hlen : (fresh (layoutSize k cap)).length = layoutSize k cap := by simp [fresh]
  have hge := layoutSize_ge k cap
  obtain ⟨b1, e1, l1, a1, o1⟩ := store_ok (b := fresh (layoutSize k cap)) (o := maskOff) (al := 8)
    (v := leBytes 8 m.toNat) (by decide) (by rw [hlen]; simp [maskOff]; omega)
  obtain ⟨b2, e2, l2, a2, o2⟩ := store_ok (b := b1) (o := capOff) (al := 1)
    (v := leBytes 1 cap) (by decide) (by rw [l1, hlen]; simp [capOff]; omega)
  obtain ⟨b3, e3, l3, a3, o3⟩ := store_ok (b := b2) (o := lenOff) (al := 1)
    (v := leBytes 1 len) (by decide) (by rw [l2, l1, hlen]; simp [lenOff]; omega)
  simp only [leBytes_length, maskOff, capOff, lenOff] at o1 o2 o3 a1 a2 a3
  refine ⟨b1, b2, b3, e1, e2, e3, by rw [l3, l2, l1, hlen]; simp, a1.congr fun i q1 q2 => ?_,
    a2.congr fun i q1 q2 => ?_, a3, hc, hl, fun i c' hc' => ?_⟩
  · rw [leBytes_length] at q2
    rw [o3 i (by omega), o2 i (by omega)]
  · rw [leBytes_length] at q2
    rw [o3 i (by omega)]
  · rw [List.getElem?_replicate] at hc'
    split at hc' <;> cases hc'
    trivial

theorem rawNew_sim (H : HeapRep ρ F h bh) (k : Kind) {cap : Nat} (m : Word) (hc : cap < 256) :
    ∃ bh' a', rawNew bh k cap m = .ok (bh', a') ∧ ∃ ρ', Ren.le ρ ρ' ∧
      HeapRep ρ' F (Dense.rawNew h k cap m).1 bh' ∧ ρ' h.next = some a' := by
  obtain ⟨b1, b2, b3, e1, e2, e3, r⟩ := header_ok (ρ := ρ) k m hc (len := 0) (by omega)
  obtain ⟨ρ', le, H', ea⟩ := H.alloc r
  refine ⟨(bh.alloc b3).1, (bh.alloc b3).2, ?_, ρ', le, H', ea⟩
  unfold rawNew
  simp only [e1, e2, e3, bind_ok, pure_eq_ok]

/-- The block of a node, reached through its address. -/
theorem bytesMut_node (H : HeapRep ρ F h bh) {a a' : Nat} {n : Node} (hn : h.node a = some n)
    (ha : ρ a = some a') : ∃ b, bytesMut bh (.heap a') = .ok (a', b) ∧ NodeRep ρ n b := by
  obtain ⟨⟨a2, b⟩, e, q⟩ := derefMut_sim H (.heap ha) (a, n) (by simp [derefMut, hn, unwrapU])
  obtain ⟨e2, r, -, -⟩ := q
  rw [ha] at e2
  cases e2
  exact ⟨b, e, r⟩

theorem rawPush_sim (H : HeapRep ρ F h bh) {k : Kind} {a a' : Nat} (ha : ρ a = some a') {c c' : Cell}
    (hv : ValOk ρ k c c') : Sim (HeapRep ρ F) (Dense.rawPush h k a c) (rawPush bh k a' c') := by
  intro h' e
  unfold Dense.rawPush at e
  unfold rawPush
  cases hn : h.node a with
  | none => rw [hn] at e; cases e
  | some n =>
    rw [hn] at e
    simp only [unwrapU, bind_ok] at e
    obtain ⟨b, hb, r⟩ := bytesMut_node H hn ha
    simp only [hb, bind_ok]
    by_cases hk : n.kind ≠ k
    · rw [if_pos hk] at e; cases e
    rw [if_neg hk] at e
    have hk : n.kind = k := by simpa using hk
    subst hk
    by_cases hd : n.len < n.cells.length
    rotate_left
    · rw [setU, if_neg hd] at e; cases e
    rw [setU_ok _ hd, bind_ok] at e
    obtain ⟨b1, e1, r1⟩ := putChild_ok r (d := n.len) (c := c) (c' := c') hd hv
    simp only [getLen_ok r, bind_ok, e1, getLen_ok r1]
    by_cases hl : n.len + 1 < 256
    · rw [if_pos hl] at e ⊢
      obtain ⟨b2, e2, r2⟩ := putLen_ok r1 hl
      simp only [bind_ok, e2]
      cases e
      exact ⟨_, rfl, H.put hn ha r2⟩
    · rw [if_neg hl] at e; cases e

theorem rawFinalize_sim (H : HeapRep ρ F h bh) {k : Kind} {a a' : Nat} (ha : ρ a = some a') {c c' : Cell}
    (hv : ValOk ρ k c c') : Sim (HeapRep ρ F) (Dense.rawFinalize h k a c) (rawFinalize bh k a' c') := by
  intro h' e
  unfold Dense.rawFinalize at e
  unfold rawFinalize
  cases hn : h.node a with
  | none => rw [hn] at e; cases e
  | some n =>
    rw [hn] at e
    simp only [unwrapU, bind_ok] at e
    obtain ⟨b, hb, r⟩ := bytesMut_node H hn ha
    simp only [hb, bind_ok]
    by_cases hk : n.kind ≠ k
    · rw [if_pos hk] at e; cases e
    rw [if_neg hk] at e
    have hk : n.kind = k := by simpa using hk
    subst hk
    by_cases hd : n.len < n.cells.length
    rotate_left
    · rw [setU, if_neg hd] at e; cases e
    rw [setU_ok _ hd, bind_ok] at e
    obtain ⟨b1, e1, r1⟩ := putChild_ok r (d := n.len) (c := c) (c' := c') hd hv
    simp only [getLen_ok r, bind_ok, e1, getLen_ok r1]
    by_cases hl : n.len + 1 < 256
    · simp only [if_pos hl, bind_ok] at e ⊢
      obtain ⟨b2, e2, r2⟩ := putLen_ok r1 hl
      simp only [e2, getLen_ok r2, getCap_ok r2, bind_ok]
      by_cases hc : n.len + 1 ≤ n.cap
      · rw [if_pos hc] at e ⊢
        cases e
        exact ⟨_, rfl, H.put hn ha r2⟩
      · rw [if_neg hc] at e; cases e
    · rw [if_neg hl] at e; cases e

theorem flat_length (l : List Ptr) : (l.flatMap ptrBytes).length = 8 * l.length := by
  induction l with
  | nil => rfl
  | cons p l ih => simp [ih]; omega

theorem flat_get : ∀ (l : List Ptr) (i : Nat) (p : Ptr) (j : Nat), l[i]? = some p → j < 8 →
    (l.flatMap ptrBytes)[8 * i + j]? = (ptrBytes p)[j]?
  | [], i, p, j, h, _ => by simp at h
  | q :: l, 0, p, j, h, hj => by
    simp only [List.getElem?_cons_zero, Option.some.injEq] at h
    subst h
    rw [List.flatMap_cons, List.getElem?_append_left (by simp; omega)]
    congr 1
    omega
  | q :: l, i + 1, p, j, h, hj => by
    rw [List.getElem?_cons_succ] at h
    rw [List.flatMap_cons, List.getElem?_append_right (by simp; omega), ← flat_get l i p j h hj]
    congr 1
    simp; omega

theorem fromParts_sim (H : HeapRep ρ F h bh) (m : Word) {childs childs' : List Ptr} {e e' : Ptr}
    (hch : PtrsRel ρ childs childs') (he : PtrRel ρ e e') (hlen : childs.length ≤ 64) :
    ∃ bh' a', fromParts bh m childs' e' = .ok (bh', a') ∧ ∃ ρ', Ren.le ρ ρ' ∧
      HeapRep ρ' F (Dense.fromParts h m (childs.map .ptr) (.ptr e)).1 bh' ∧
      ρ' (Dense.fromParts h m (childs.map .ptr) (.ptr e)).2 = some a' := by
  have hc : (childs.length + 1) % 256 = childs.length + 1 := Nat.mod_eq_of_lt (by omega)
  have hl : childs.length % 256 = childs.length := Nat.mod_eq_of_lt (by omega)
  have hll := hch.length
  obtain ⟨b1, b2, b3, e1, e2, e3, r3⟩ := header_ok (ρ := ρ)
    .branch (cap := childs.length + 1) (len := childs.length) m (by omega) (by omega)
  obtain ⟨b4, e4, l4, a4, o4⟩ := store_ok (b := b3) (o := childOff .branch 0) (al := tsize .branch)
    (v := childs'.flatMap ptrBytes) (childOff_align _ _)
    (by rw [r3.size, flat_length, hll]; simp [childOff, childrenOff]; omega)
  rw [flat_length, hll] at o4
  have hco : childOff .branch 0 = 16 := rfl
  rw [hco] at o4 a4
  have r4 : NodeRep ρ ⟨.branch, m, childs.length + 1, childs.length,
      childs.map .ptr ++ [.uninit]⟩ b4 := by
    refine ⟨by rw [l4, r3.size]; simp, r3.mask.congr fun i q1 q2 => o4 i ?_,
      r3.cap.congr fun i q1 q2 => o4 i ?_, r3.len.congr fun i q1 q2 => o4 i ?_, r3.cap_lt, r3.len_lt,
      fun i c hi => ?_⟩
    · rw [leBytes_length] at q2; omega
    · rw [leBytes_length] at q2; omega
    · rw [leBytes_length] at q2; omega
    · simp only at hi ⊢
      by_cases h1 : i < childs.length
      · rw [List.getElem?_append_left (by simpa using h1), List.getElem?_map,
          List.getElem?_eq_getElem h1] at hi
        cases hi
        obtain ⟨p', hp', hpr⟩ := hch.get i _ (List.getElem?_eq_getElem h1)
        refine ⟨rfl, p', hpr, fun j hj => ?_⟩
        have hj : j < 8 := by simpa using hj
        rw [← flat_get childs' i _ j hp' hj,
          ← a4 (8 * i + j) (by rw [flat_length, hll]; omega)]
        congr 1
        simp [childOff, childrenOff, tsize]; omega
      · rw [List.getElem?_append_right (by simpa using h1)] at hi
        have : c = .uninit := by
          cases hx : i - (childs.map Cell.ptr).length with
          | zero => rw [hx] at hi; simpa using hi.symm
          | succ y => rw [hx] at hi; simp at hi
        subst this
        trivial
  obtain ⟨b5, e5, r5⟩ := putChild_ok r4 (d := childs.length) (c := .ptr e) (c' := .ptr e') (by simp)
    (.ptr e e' he)
  have hcells : (childs.map Cell.ptr ++ [Cell.uninit]).set childs.length (Cell.ptr e) =
      childs.map Cell.ptr ++ [Cell.ptr e] := by
    rw [List.set_append_right _ _ (by simp)]
    simp
  simp only [hcells] at r5
  obtain ⟨ρ', le, H', ea⟩ := H.alloc r5
  have hfp : Dense.fromParts h m (childs.map .ptr) (.ptr e) =
      h.alloc ⟨.branch, m, childs.length + 1, childs.length, childs.map .ptr ++ [.ptr e]⟩ := by
    unfold Dense.fromParts
    simp only [List.length_map, hc, hl]
  rw [hfp]
  refine ⟨(bh.alloc b5).1, (bh.alloc b5).2, ?_, ρ', le, H', ea⟩
  have e5 : putChild .branch b4 childs.length (.ptr e') = .ok b5 := e5
  unfold fromParts
  simp only [hll, hc, hl, e1, e2, e3, e4, e5, bind_ok, pure_eq_ok]

section
variable {S C α : Type} {I : Impl S C α} {s : S}

/-- The construction states correspond. -/
structure MRep (F : Mem) (ρ : Ren) (st : Dense.MSt C α) (bst : MSt C α) : Prop where
  heap : HeapRep ρ F st.heap bst.heap
  cur : bst.cur = st.cur
  data : bst.data = st.data
  keys : bst.keys = st.keys

theorem traverseM_sim {σ τ : Type} {Q : Ren → σ → τ → Prop} {f : σ → Nat → R σ} {g : τ → Nat → R τ}
    (hf : ∀ ρ s t i, Q ρ s t → SimW ρ Q (f s i) (g t i)) {s : σ} {t : τ} (q : Q ρ s t) (m : Mask) :
    SimW ρ Q (traverseM f s m) (traverseM g t m) := by
  rw [traverseM_eq, traverseM_eq]
  exact foldlM_simW hf _ ρ s t q

/-- The construction states correspond, and so do the addresses of the node under construction. -/
def MARep (F : Mem) (a a' : Nat) (ρ : Ren) (st : Dense.MSt C α) (bst : MSt C α) : Prop :=
  MRep F ρ st bst ∧ ρ a = some a'

variable {st : Dense.MSt C α} {bst : MSt C α}

theorem terminalBody_sim {a a' : Nat} (M : MARep F a a' ρ st bst) (keyAcc index : Nat) :
    SimW ρ (MARep F a a') (Dense.terminalBody I s a keyAcc st index)
      (terminalBody I s a' keyAcc bst index) := by
  obtain ⟨M, ha⟩ := M
  unfold Dense.terminalBody terminalBody Dense.pushData pushData
  rw [M.cur, M.data, M.keys]
  refine Sim.same fun data _ => ?_
  refine Sim.same fun key _ => ?_
  refine Sim.bind (rawPush_sim M.heap ha (.idx _ (Nat.mod_lt _ (by decide)))) fun h bh H => ?_
  exact SimW.ok ⟨⟨H, rfl, rfl, rfl⟩, ha⟩

/-- Construction states and addresses of finished nodes correspond. -/
def MOut (F : Mem) (ρ : Ren) (x : Dense.MSt C α × Nat) (y : MSt C α × Nat) : Prop :=
  MRep F ρ x.1 y.1 ∧ ρ x.2 = some y.2

theorem makeTerminalNode_sim (M : MRep F ρ st bst) (mask : Word) {cap : Nat} (hc : cap < 256)
    (keyAcc : Nat) : SimW ρ (MOut F)
      (Dense.makeTerminalNode I s st mask cap keyAcc) (makeTerminalNode I s bst mask cap keyAcc) := by
  unfold Dense.makeTerminalNode makeTerminalNode
  obtain ⟨bh', a', e, ρ1, le1, H, ha⟩ := rawNew_sim M.heap .term mask hc
  rw [e, bind_ok]
  have M0 : MARep F st.heap.next a' ρ1 { st with heap := (Dense.rawNew st.heap .term cap mask).1 }
      { bst with heap := bh' } := ⟨⟨H, M.cur, M.data, M.keys⟩, ha⟩
  have key := SimW.bind (ρ := ρ1) (Q' := MOut F) (traverseM_sim (Q := MARep F st.heap.next a')
    (f := Dense.terminalBody I s st.heap.next keyAcc) (g := terminalBody I s a' keyAcc)
    (fun _ _ _ i q => terminalBody_sim q _ i) M0 [mask])
    (f := fun st1 => do
      let h ← Dense.rawFinalize st1.heap .term st.heap.next (.idx 0)
      return ({ st1 with heap := h }, st.heap.next))
    (g := fun st1 => do
      let h ← rawFinalize st1.heap .term a' (.idx 0)
      return ({ st1 with heap := h }, a'))
    fun ρ2 st1 bst1 _ M1 => by
      obtain ⟨M1, ha1⟩ := M1
      refine Sim.bind (rawFinalize_sim M1.heap ha1 (.idx 0 (by decide))) fun h1 bh1 H1 => ?_
      exact SimW.ok ⟨⟨H1, M1.cur, M1.data, M1.keys⟩, ha1⟩
  exact key.mono fun _ _ ⟨ρ2, le2, q⟩ => ⟨ρ2, le1.trans le2, q⟩

theorem capOf_lt {m : Word} {c : Nat} (h : capOf m = .ok c) : c < 256 := by
  unfold capOf at h
  simp only at h
  by_cases h1 : popcount m % 256 + 1 < 256
  · rw [if_pos h1] at h; cases h; exact h1
  · rw [if_neg h1] at h; cases h

theorem fromExact_sim : ∀ (left : Nat) {ρ : Ren} {st : Dense.MSt C α} {bst : MSt C α}
    (_ : MRep F ρ st bst) (index keyAcc : Nat), SimW ρ (MOut F)
      (Dense.fromExact I s left st index keyAcc) (fromExact I s left bst index keyAcc)
  | 0, ρ, st, bst, M, index, keyAcc => by
    unfold Dense.fromExact fromExact
    refine Sim.ite (fun _ => ?_) fun _ => Sim.err
    rw [M.cur]
    refine Sim.same fun mc _ => ?_
    refine Sim.same fun mask _ => ?_
    refine Sim.same fun cap hcap => ?_
    exact makeTerminalNode_sim (st := { st with cur := mc.2 }) (bst := { bst with cur := mc.2 })
      ⟨M.heap, rfl, M.data, M.keys⟩ mask (capOf_lt hcap) keyAcc
  | left + 1, ρ, st, bst, M, index, keyAcc => by
    unfold Dense.fromExact fromExact
    refine Sim.ite (fun _ => ?_) fun _ => Sim.err
    rw [M.cur]
    refine Sim.same fun mc _ => ?_
    refine Sim.same fun mask _ => ?_
    refine Sim.same fun cap hcap => ?_
    obtain ⟨bh', a', e, ρ1, le1, H, ha⟩ := rawNew_sim M.heap .branch mask (capOf_lt hcap)
    rw [e, bind_ok]
    have M0 : MARep F st.heap.next a' ρ1
        { st with heap := (Dense.rawNew st.heap .branch cap mask).1, cur := mc.2 }
        { bst with heap := bh', cur := mc.2 } := ⟨⟨H, rfl, M.data, M.keys⟩, ha⟩
    have key := SimW.bind (ρ := ρ1) (Q' := MOut F) (traverseM_sim (Q := MARep F st.heap.next a')
      (f := Dense.exactBody I.D (I.D - 1 - (left + 1)) st.heap.next keyAcc (Dense.fromExact I s left))
      (g := exactBody I.D (I.D - 1 - (left + 1)) a' keyAcc (fromExact I s left))
      (fun ρ st1 bst1 i M1 => by
        unfold Dense.exactBody exactBody
        obtain ⟨M1, ha1⟩ := M1
        refine Sim.same fun b _ => ?_
        refine Sim.same fun key _ => ?_
        refine SimW.bind (fromExact_sim left M1 i key) fun ρ2 x y le2 q => ?_
        obtain ⟨x1, x2⟩ := x
        obtain ⟨y1, y2⟩ := y
        obtain ⟨q1, q2⟩ := q
        refine Sim.bind (rawPush_sim q1.heap (le2 _ _ ha1) (.ptr _ _ (.heap q2))) fun h bh H => ?_
        exact SimW.ok ⟨⟨H, q1.cur, q1.data, q1.keys⟩, le2 _ _ ha1⟩) M0 [mask])
      (f := fun st1 => do
        let e ← emptyNode (I.D - 1 - (left + 1) + 1) I.D
        let h ← Dense.rawFinalize st1.heap .branch st.heap.next (.ptr e)
        return ({ st1 with heap := h }, st.heap.next))
      (g := fun st1 => do
        let e ← emptyNode (I.D - 1 - (left + 1) + 1) I.D
        let h ← rawFinalize st1.heap .branch a' (.ptr e)
        return ({ st1 with heap := h }, a'))
      fun ρ2 st1 bst1 _ M1 => by
        obtain ⟨M1, ha1⟩ := M1
        refine Sim.same fun e he => ?_
        refine Sim.bind (rawFinalize_sim M1.heap ha1 (.ptr e e (emptyNode_rel he _))) fun h1 bh1 H1 => ?_
        exact SimW.ok ⟨⟨H1, M1.cur, M1.data, M1.keys⟩, ha1⟩
    exact key.mono fun _ _ ⟨ρ2, le2, q⟩ => ⟨ρ2, le1.trans le2, q⟩

/-- The local states of the inexact construction correspond. -/
structure SMRep (F : Mem) (ρ : Ren) (v : Dense.SSt C α) (bv : SSt C α) : Prop where
  st : MRep F ρ v.st bv.st
  mask : bv.nodeMask = v.nodeMask
  childs : ∃ l, v.childs = l.map .ptr ∧ PtrsRel ρ l bv.childs
  len : bv.childs.length ≤ 64

/-- Construction states and addresses of finished nodes, if any, correspond. -/
def MOutO (F : Mem) (ρ : Ren) (x : Dense.MSt C α × Option Nat) (y : MSt C α × Option Nat) : Prop :=
  MRep F ρ x.1 y.1 ∧ ((x.2 = none ∧ y.2 = none) ∨ ∃ a a', x.2 = some a ∧ y.2 = some a' ∧ ρ a = some a')

theorem fromSparse_sim : ∀ (left : Nat) {ρ : Ren} {st : Dense.MSt C α} {bst : MSt C α}
    (_ : MRep F ρ st bst) (index keyAcc : Nat), SimW ρ (MOutO F)
      (Dense.fromSparse I s left st index keyAcc) (fromSparse I s left bst index keyAcc)
  | 0, ρ, st, bst, M, index, keyAcc => by
    unfold Dense.fromSparse fromSparse
    rw [M.cur]
    refine Sim.same fun mc _ => ?_
    refine Sim.same fun mask _ => ?_
    refine Sim.same fun cap hcap => ?_
    refine SimW.bind (makeTerminalNode_sim (st := { st with cur := mc.2 })
      (bst := { bst with cur := mc.2 }) ⟨M.heap, rfl, M.data, M.keys⟩ mask (capOf_lt hcap) keyAcc)
      fun ρ1 x y _ q => ?_
    obtain ⟨x1, x2⟩ := x
    obtain ⟨y1, y2⟩ := y
    obtain ⟨q1, q2⟩ := q
    exact SimW.ok ⟨q1, .inr ⟨x2, y2, rfl, rfl, q2⟩⟩
  | left + 1, ρ, st, bst, M, index, keyAcc => by
    unfold Dense.fromSparse fromSparse
    rw [M.cur]
    refine Sim.same fun mc _ => ?_
    refine Sim.same fun mask _ => ?_
    refine SimW.bind (traverseM_sim (Q := SMRep F) (fun ρ1 v bv i V => ?_)
      (⟨⟨M.heap, rfl, M.data, M.keys⟩, rfl, ⟨[], rfl, .nil⟩, by simp⟩ :
        SMRep F ρ ⟨{ st with cur := mc.2 }, 0, []⟩ ⟨{ bst with cur := mc.2 }, 0, []⟩) [mask])
      fun ρ1 v bv _ V => ?_
    · unfold Dense.sparseBody sparseBody
      refine Sim.same fun b _ => ?_
      refine Sim.same fun key _ => ?_
      refine SimW.bind (fromSparse_sim left V.st i key) fun ρ2 x y le2 q => ?_
      obtain ⟨x1, x2⟩ := x
      obtain ⟨y1, y2⟩ := y
      obtain ⟨l, hl, hr⟩ := V.childs
      obtain ⟨q1, ⟨e1, e2⟩ | ⟨a, a', e1, e2, ha⟩⟩ := q
      · simp only at e1 e2
        subst e1 e2
        exact SimW.ok ⟨q1, V.mask, ⟨l, hl, hr.mono le2⟩, V.len⟩
      · simp only at e1 e2
        subst e1 e2
        simp only
        rw [V.mask, hl, List.length_map, ← hr.length]
        refine Sim.same fun mm _ => ?_
        refine Sim.ite (fun hlt => ?_) fun _ => Sim.err
        refine SimW.ok ⟨q1, rfl, ⟨l ++ [.heap a], by simp [hl], (hr.mono le2).append (.cons (.heap ha) .nil)⟩,
          by simp; omega⟩
    · obtain ⟨l, hl, hr⟩ := V.childs
      have hemp : v.childs.isEmpty = bv.childs.isEmpty := by
        have := hr.length
        rw [hl, List.isEmpty_map]
        cases l <;> cases hb : bv.childs <;> simp_all
      rw [hemp]
      refine Sim.ite (fun _ => SimW.ok ⟨V.st, .inl ⟨rfl, rfl⟩⟩) fun _ => ?_
      refine Sim.same fun e he => ?_
      obtain ⟨bh', a', e', ρ2, le2, H, ha⟩ := fromParts_sim V.st.heap v.nodeMask hr (emptyNode_rel he _)
        (by have := hr.length; have := V.len; omega)
      rw [V.mask, e', bind_ok, hl]
      exact Sim.ok ⟨ρ2, le2, ⟨H, V.st.cur, V.st.data, V.st.keys⟩, .inr ⟨_, a', rfl, rfl, ha⟩⟩

/-- hibit_tree.rs:224-229 on bytes gives the same tree. -/
theorem materialize_sim (I : Impl S C α) (s : S) {bh : BHeap} (hf : Finite bh.block) :
    Sim (fun t bt => ∃ ρ, TRep ρ bh.block t bt) (Dense.materialize I s) (materialize I s bh) := by
  unfold Dense.materialize materialize
  refine Sim.same fun cur _ => ?_
  have M0 : MRep (C := C) (α := α) bh.block (fun _ => none)
      ⟨⟨fun _ => none, 0⟩, cur, [none], [usizeMod - 1]⟩
      ⟨bh, cur, [none], [usizeMod - 1]⟩ := ⟨emptyHeap_rep hf, rfl, rfl, rfl⟩
  have key : SimW (fun _ => none) (MOut (C := C) (α := α) bh.block)
      (Dense.fromRoot I s ⟨⟨fun _ => none, 0⟩, cur, [none], [usizeMod - 1]⟩)
      (fromRoot I s ⟨bh, cur, [none], [usizeMod - 1]⟩) := by
    unfold Dense.fromRoot fromRoot
    refine Sim.ite (fun _ => fromExact_sim _ M0 0 0) fun _ => ?_
    refine SimW.bind (fromSparse_sim _ M0 0 0) fun ρ x y _ q => ?_
    obtain ⟨x1, x2⟩ := x
    obtain ⟨y1, y2⟩ := y
    obtain ⟨q1, ⟨e1, e2⟩ | ⟨a, a', e1, e2, ha⟩⟩ := q
    · simp only at e1 e2
      subst e1 e2
      exact Sim.err
    · simp only at e1 e2
      subst e1 e2
      exact SimW.ok ⟨q1, ha⟩
  refine Sim.bind key fun x y q => ?_
  obtain ⟨x1, x2⟩ := x
  obtain ⟨y1, y2⟩ := y
  obtain ⟨ρ, -, q1, q2⟩ := q
  exact Sim.ok ⟨ρ, q1.heap, .heap q2, q1.data, q1.keys⟩

end

end Hibit.Bytes
