import Verif.Threads.Frozen
import Verif.Iter
import Verif.Ops.Model
/-!
# Reading trees, access by access

Cursors, `get`, iteration and the binary combinators as programs. A program that reads finds the same in every
memory that contains the blocks of the trees it reads.
-/
namespace Hibit.Threads
open Hibit Hibit.Dense Hibit.Bytes

/-! ## Model -/

/-- `HibitTree` and its cursor (hibit_tree.rs:141-218, 284-321), as `Impl`, with programs as methods. -/
structure PImpl (S Cur δ : Type) where
  N : Nat
  D : Nat
  exact : Bool
  data : S → Nat → List Nat → Prog (Option δ)
  dataU : S → Nat → List Nat → Prog δ
  new : S → Prog Cur
  select : Cur → S → Nat → Nat → Prog (Mask × Cur)
  selectU : Cur → S → Nat → Nat → Prog (Mask × Cur)
  curData : Cur → S → Nat → Prog (Option δ)
  curDataU : Cur → S → Nat → Prog δ

/-- A tree that is private to the thread: a SparseTree (its vectors), or a tree type of the user. -/
def privImpl {S C δ : Type} (I : Impl S C δ) : PImpl S C δ where
  N := I.N
  D := I.D
  exact := I.exact
  data := fun s k li => Prog.lift (I.data s k li)
  dataU := fun s k li => Prog.lift (I.dataU s k li)
  new := fun s => Prog.lift (I.new s)
  select := fun c s n i => Prog.lift (I.select c s n i)
  selectU := fun c s n i => Prog.lift (I.selectU c s n i)
  curData := fun c s i => Prog.lift (I.curData c s i)
  curDataU := fun c s i => Prog.lift (I.curDataU c s i)

/-- dense_tree.rs:365-378 `HibitTree::data`. -/
def treeData {α : Type} (D : Nat) (t : Tree α) (index : Nat) (indices : List Nat) : Prog (Option α) := do
  let r ← getTerminalNode D t.root indices
  let dataIndex ← getChildIdx r.1 r.2
  let key ← Prog.lift (getU t.keys dataIndex)
  if key = index then
    let v ← Prog.lift (getU t.data dataIndex)
    let v ← Prog.lift (unwrapU v)
    return some v
  else return none

/-- dense_tree.rs:438-442, 469-473. -/
def prevNode {α : Type} (c : Cursor) (t : Tree α) (n : Nat) : R Ptr :=
  if n = 1 then .ok t.root
  else do
    let o ← getU c (n - 1 - 1)
    unwrapU o

/-- dense_tree.rs:424-452 `select_level_node`. -/
def curSelect {α : Type} (D : Nat) (c : Cursor) (t : Tree α) (n i : Nat) : Prog (Mask × Cursor) := do
  if n = 0 then
    let m ← getMask t.root
    return ([m], c)
  else
    let prev ← Prog.lift (prevNode c t n)
    let has ← contains prev i
    let node ← getChildPtr prev i
    let node ← Prog.lift (if has then Except.ok node else emptyNode n D)
    let c ← Prog.lift (setU c (n - 1) (some node))
    let m ← getMask node
    return ([m], c)

/-- dense_tree.rs:455-480 `select_level_node_unchecked`. -/
def curSelectU {α : Type} (c : Cursor) (t : Tree α) (n i : Nat) : Prog (Mask × Cursor) := do
  if n = 0 then
    let m ← getMask t.root
    return ([m], c)
  else
    let prev ← Prog.lift (prevNode c t n)
    let node ← getChildPtr prev i
    let c ← Prog.lift (setU c (n - 1) (some node))
    let m ← getMask node
    return ([m], c)

/-- dense_tree.rs:488-493, 511-516. -/
def curTerminal {α : Type} (D : Nat) (c : Cursor) (t : Tree α) : R Ptr :=
  if D = 1 then .ok t.root
  else do
    let o ← unwrapU c.getLast?
    unwrapU o

/-- dense_tree.rs:485-505 `Cursor::data`. -/
def curData {α : Type} (D : Nat) (c : Cursor) (t : Tree α) (i : Nat) : Prog (Option α) := do
  let node ← Prog.lift (curTerminal D c t)
  let has ← contains node i
  if has then
    let dataIndex ← getChildIdx node i
    let v ← Prog.lift (getU t.data dataIndex)
    let v ← Prog.lift (unwrapU v)
    return some v
  else return none

/-- dense_tree.rs:508-520 `Cursor::data_unchecked`. -/
def curDataU {α : Type} (D : Nat) (c : Cursor) (t : Tree α) (i : Nat) : Prog α := do
  let node ← Prog.lift (curTerminal D c t)
  let dataIndex ← getChildIdx node i
  let v ← Prog.lift (getU t.data dataIndex)
  Prog.lift (unwrapU v)

/-- dense_tree.rs:354-386 (tree) and 409-521 (cursor). -/
def denseImpl (α : Type) (D : Nat) : PImpl (Tree α) Cursor α where
  N := 1
  D := D
  exact := true
  data := treeData D
  dataU := fun t index li => do let d ← treeData D t index li; Prog.lift (unwrapU d)
  new := fun _ => .ret (List.replicate (D - 1) none)
  select := curSelect D
  selectU := curSelectU
  curData := curData D
  curDataU := curDataU D

/-- union.rs:33-68 (tree) and 96-162 (cursor). -/
def unionP {S0 C0 δ0 S1 C1 δ1 : Type} (I0 : PImpl S0 C0 δ0) (I1 : PImpl S1 C1 δ1) :
    PImpl (S0 × S1) (C0 × C1) (Option δ0 × Option δ1) :=
  let selU := fun (c : C0 × C1) (s : S0 × S1) (n i : Nat) => do
    let r0 ← I0.select c.1 s.1 n i
    let r1 ← I1.select c.2 s.2 n i
    return (orMask r0.1 r1.1, (r0.2, r1.2))
  let cdata := fun (c : C0 × C1) (s : S0 × S1) (i : Nat) => do
    let d0 ← I0.curData c.1 s.1 i
    let d1 ← I1.curData c.2 s.2 i
    if d0.isNone && d1.isNone then return none else return some (d0, d1)
  let tdata := fun (s : S0 × S1) (index : Nat) (li : List Nat) => do
    let d0 ← I0.data s.1 index li
    let d1 ← I1.data s.2 index li
    if d0.isNone && d1.isNone then return none else return some (d0, d1)
  { N := I0.N
    D := I0.D
    exact := I0.exact && I1.exact
    data := tdata
    dataU := fun s index li => do let d ← tdata s index li; Prog.lift (unwrapU d)
    new := fun s => do
      let c0 ← I0.new s.1
      let c1 ← I1.new s.2
      return (c0, c1)
    select := selU
    selectU := selU
    curData := cdata
    curDataU := fun c s i => do let d ← cdata c s i; Prog.lift (unwrapU d) }

/-- intersection.rs:35-68 (tree) and 90-171 (cursor). -/
def interP {S0 C0 δ0 S1 C1 δ1 : Type} (I0 : PImpl S0 C0 δ0) (I1 : PImpl S1 C1 δ1) :
    PImpl (S0 × S1) (C0 × C1) (δ0 × δ1) where
  N := I0.N
  D := I0.D
  exact := false
  data := fun s index li => do
    let d0 ← I0.data s.1 index li
    let d1 ← I1.data s.2 index li
    Prog.lift (bothU d0 d1)
  dataU := fun s index li => do
    let d0 ← I0.dataU s.1 index li
    let d1 ← I1.dataU s.2 index li
    return (d0, d1)
  new := fun s => do
    let c0 ← I0.new s.1
    let c1 ← I1.new s.2
    return (c0, c1)
  select := fun c s n i => do
    let r0 ← I0.select c.1 s.1 n i
    let r1 ← I1.select c.2 s.2 n i
    return (andMask r0.1 r1.1, (r0.2, r1.2))
  selectU := fun c s n i => do
    let r0 ← I0.selectU c.1 s.1 n i
    let r1 ← I1.selectU c.2 s.2 n i
    return (andMask r0.1 r1.1, (r0.2, r1.2))
  curData := fun c s i => do
    let d0 ← I0.curData c.1 s.1 i
    let d1 ← I1.curData c.2 s.2 i
    Prog.lift (bothU d0 d1)
  curDataU := fun c s i => do
    let d0 ← I0.curDataU c.1 s.1 i
    let d1 ← I1.curDataU c.2 s.2 i
    return (d0, d1)

/-- map.rs:45-74 (tree) and 93-141 (cursor). -/
def mapP {S C δ ε : Type} (I : PImpl S C δ) (f : δ → ε) : PImpl S C ε where
  N := I.N
  D := I.D
  exact := I.exact
  data := fun s index li => do
    let d ← I.data s index li
    return d.map f
  dataU := fun s index li => do
    let d ← I.dataU s index li
    return f d
  new := I.new
  select := I.select
  selectU := I.selectU
  curData := fun c s i => do
    let d ← I.curData c s i
    return d.map f
  curDataU := fun c s i => do
    let d ← I.curDataU c s i
    return f d

/-- hibit_tree.rs:190-196 `HibitTree::get`. -/
def PImpl.get {S Cur δ : Type} (I : PImpl S Cur δ) (s : S) (index : Nat) : Prog (Option δ) := do
  let index ← Prog.lift (indexFrom I.N I.D index)
  let indices ← Prog.lift (levelIndices I.N I.D index)
  I.data s index indices

/-- iter.rs:49-73 `Iter::new`. -/
def PImpl.iterNew {S Cur δ : Type} (I : PImpl S Cur δ) (s : S) : Prog (IterSt Cur) := do
  let cur ← I.new s
  let r ← I.selectU cur s 0 0
  if (List.replicate I.D (BitsIter.empty I.N)).length = 0 then .err .panic
  else
    return ⟨(List.replicate I.D (BitsIter.empty I.N)).set 0 (intoBitsIter r.1),
      List.replicate (I.D - 1) (usizeMod - 1), r.2⟩

/-- iter.rs:99-133 the visitor of the upward search. -/
def PImpl.iterVisit {S Cur δ : Type} (I : PImpl S Cur δ) (s : S) (st : IterSt Cur) (i : Nat) :
    Prog (IterSt Cur × Bool) := do
  let it ← Prog.lift (Hibit.getU st.iters i)
  let x ← Prog.lift it.next
  let iters ← Prog.lift (setU st.iters i x.2)
  match x.1 with
  | some index =>
    let lidx ← Prog.lift (setU st.lidx i index)
    let r ← I.selectU st.cur s (i + 1) index
    let iters ← Prog.lift (setU iters (i + 1) (intoBitsIter r.1))
    return (⟨iters, lidx, r.2⟩, true)
  | none => return (⟨iters, st.lidx, st.cur⟩, false)

/-- const_int.rs:52-66 `iterate_as_range_rev`, with a program as visitor. -/
def rangeRev {σ : Type} (v : σ → Nat → Prog (σ × Bool)) (frm : Nat) : Nat → σ → Prog (σ × Bool)
  | 0, s => .ret (s, false)
  | self + 1, s => do
    let r ← v s self
    if r.2 then return (r.1, true)
    else if self + 1 = frm then return (r.1, false)
    else rangeRev v frm self r.1

/-- iter.rs:86-139 the `loop` of `next`. -/
def PImpl.iterLoop {S Cur δ : Type} (I : PImpl S Cur δ) (s : S) :
    Nat → IterSt Cur → Prog (Option Nat × IterSt Cur)
  | 0, _ => .err .fuel
  | fuel + 1, st => do
    let it ← Prog.lift (getP st.iters (st.iters.length - 1))
    let x ← Prog.lift it.next
    match x.1 with
    | some index => return (some index, ⟨st.iters.set (st.iters.length - 1) x.2, st.lidx, st.cur⟩)
    | none => do
      let r ← rangeRev (I.iterVisit s) 0 (I.D - 1) ⟨st.iters.set (st.iters.length - 1) x.2, st.lidx, st.cur⟩
      if r.2 then I.iterLoop s fuel r.1 else return (none, r.1)

/-- iter.rs:85-147 `next`. -/
def PImpl.iterNext {S Cur δ : Type} (I : PImpl S Cur δ) (s : S) (fuel : Nat) (st : IterSt Cur) :
    Prog (Option (Nat × δ) × IterSt Cur) := do
  let r ← I.iterLoop s fuel st
  match r.1 with
  | none => return (none, r.2)
  | some levelIndex =>
    let d ← I.curDataU r.2.cur s levelIndex
    let idx ← Prog.lift (dataBlockIndex I.N I.D r.2.lidx levelIndex)
    return (some (idx, d), r.2)

/-- `n` successive calls of `next`. -/
def PImpl.iterTake {S Cur δ : Type} (I : PImpl S Cur δ) (s : S) (fuel : Nat) :
    Nat → IterSt Cur → Prog (List (Option (Nat × δ)))
  | 0, _ => .ret []
  | n + 1, st => do
    let r ← I.iterNext s fuel st
    let rest ← I.iterTake s fuel n r.2
    return r.1 :: rest

/-- `tree.iter()` and `n` calls of `next()`, each with at most `fuel` rounds of its loop. -/
def PImpl.iterRun {S Cur δ : Type} (I : PImpl S Cur δ) (s : S) (fuel n : Nat) :
    Prog (List (Option (Nat × δ))) := do
  let st ← I.iterNew s
  I.iterTake s fuel n st

/-! ## What a reading program finds -/

/-- In every memory that contains the blocks `m`, the program `p` alone does what `x` says, if that succeeds; it writes
nothing and leaves the memory as it is. -/
def Finds {β : Type} (p : Prog β) (m : Mem) (x : R β) : Prop :=
  ∀ b, x = .ok b → ∀ h, Within m h → ∀ Z, (p.guard Z).alone h = .ok (b, h)

section
variable {β γ : Type} {m : Mem}

theorem Finds.ok (b : β) : Finds (.ret b) m (.ok b) := fun _ e _ _ _ => by cases e; rfl
theorem Finds.err {p : Prog β} {e : Err} : Finds p m (.error e) := fun _ e _ _ _ => by cases e
theorem Finds.lift (x : R β) : Finds (Prog.lift x) m x := fun b e _ _ _ => by subst e; rfl

theorem Finds.bind {p : Prog β} {f : β → Prog γ} {x : R β} {g : β → R γ} (h1 : Finds p m x)
    (h2 : ∀ b, x = .ok b → Finds (f b) m (g b)) : Finds (p >>= f) m (x >>= g) := by
  intro c e h hw Z
  obtain ⟨b, e1, e2⟩ := bind_inv e
  rw [guard_bind, alone_bind, h1 b e1 h hw Z]
  exact h2 b e1 c e2 h hw Z

theorem Finds.priv {x : R β} {f : β → Prog γ} {g : β → R γ} (h2 : ∀ b, x = .ok b → Finds (f b) m (g b)) :
    Finds (Prog.lift x >>= f) m (x >>= g) := Finds.bind (Finds.lift x) h2

theorem Finds.ite {c : Prop} [Decidable c] {p q : Prog β} {x y : R β} (h1 : c → Finds p m x)
    (h2 : ¬ c → Finds q m y) : Finds (if c then p else q) m (if c then x else y) := by
  by_cases hc : c
  · rw [if_pos hc, if_pos hc]; exact h1 hc
  · rw [if_neg hc, if_neg hc]; exact h2 hc

/-- From the refinement, when the function finds the same in every memory that contains the blocks. -/
theorem Finds.of_ref {p : Prog β} {x : BHeap → R β} {h0 : BHeap} (h0' : Loads p) (h1 : ∀ h, Ref p h (x h) (fun c => (c, h)))
    (h2 : ∀ b h, x h0 = .ok b → Within h0.block h → x h = .ok b) : Finds p h0.block (x h0) :=
  fun b e h hw Z => by rw [h0'.guard Z]; exact h1 h b (h2 b h e hw)

end

section
variable {h0 : BHeap}

theorem bytesOf_within {p : Ptr} {b : Block} {h : BHeap} (e : bytesOf h0 p = .ok b) (hw : Within h0.block h) :
    bytesOf h p = .ok b := by
  obtain ⟨b', e1, e2⟩ := bind_inv e
  have e1 := unwrapU_eq_ok e1
  cases p with
  | heap a =>
    have e3 : h.block a = some b' := hw a b' e1
    show (unwrapU (h.block a) >>= _) = _
    rw [e3]
    exact e2
  | stat i =>
    have e3 : statBlock i = some b' := e1
    show (unwrapU (statBlock i) >>= _) = _
    rw [e3]
    exact e2

theorem bytesBind_within {β : Type} {p : Ptr} {g : Block → R β} {c : β} {h : BHeap}
    (e : (bytesOf h0 p >>= g) = .ok c) (hw : Within h0.block h) : (bytesOf h p >>= g) = .ok c := by
  obtain ⟨b, e1, e2⟩ := bind_inv e
  rw [bytesOf_within e1 hw]
  exact e2

theorem contains_finds (p : Ptr) (i : Nat) : Finds (contains p i) h0.block (Bytes.contains h0 p i) :=
  Finds.of_ref (x := fun h => Bytes.contains h p i) (contains_loads p i) (fun _ => contains_ref p i) fun _ _ e hw => bytesBind_within e hw

theorem maskOf_finds (p : Ptr) : Finds (getMask p) h0.block (Bytes.maskOf h0 p) :=
  Finds.of_ref (x := fun h => Bytes.maskOf h p) (getMask_loads p) (fun _ => maskOf_ref p) fun _ _ e hw => bytesBind_within e hw

theorem denseOf_within {p : Ptr} {i d : Nat} {h : BHeap} (e : Bytes.denseOf h0 p i = .ok d)
    (hw : Within h0.block h) : Bytes.denseOf h p i = .ok d := by
  obtain ⟨m, e1, e2⟩ := bind_inv e
  have : Bytes.maskOf h p = .ok m := bytesBind_within e1 hw
  unfold Bytes.denseOf
  rw [this]
  exact e2

theorem getChildPtr_finds (p : Ptr) (i : Nat) : Finds (getChildPtr p i) h0.block (Bytes.getChildPtr h0 p i) :=
  Finds.of_ref (x := fun h => Bytes.getChildPtr h p i) (getChildPtr_loads p i) (fun _ => getChildPtr_ref p i) fun _ h e hw => by
    obtain ⟨d, e1, e2⟩ := bind_inv e
    show (Bytes.denseOf h p i >>= fun d => bytesOf h p >>= fun b => Bytes.childPtr b d) = _
    rw [denseOf_within e1 hw]
    exact bytesBind_within e2 hw

theorem getChildIdx_finds (p : Ptr) (i : Nat) : Finds (getChildIdx p i) h0.block (Bytes.getChildIdx h0 p i) :=
  Finds.of_ref (x := fun h => Bytes.getChildIdx h p i) (getChildIdx_loads p i) (fun _ => getChildIdx_ref p i) fun _ h e hw => by
    obtain ⟨d, e1, e2⟩ := bind_inv e
    show (Bytes.denseOf h p i >>= fun d => bytesOf h p >>= fun b => Bytes.childIdx b d) = _
    rw [denseOf_within e1 hw]
    exact bytesBind_within e2 hw

theorem terminalLoop_finds (indices : List Nat) : ∀ (ns : List Nat) (p : Ptr),
    Finds (terminalLoop indices ns p) h0.block (Bytes.terminalLoop h0 indices ns p)
  | [], p => Finds.ok p
  | _ :: ns, p => Finds.priv fun i _ => Finds.bind (getChildPtr_finds p i) fun q _ => terminalLoop_finds indices ns q

theorem getTerminalNode_finds (D : Nat) (root : Ptr) (indices : List Nat) :
    Finds (getTerminalNode D root indices) h0.block (Bytes.getTerminalNode D h0 root indices) :=
  Finds.bind (terminalLoop_finds _ _ _) fun _ _ => Finds.priv fun _ _ => Finds.ok _

end

/-! ## A tree as programs, and as functions of a memory -/

/-- The methods of the tree `s'`, as programs, find what those of `s` are, wherever the blocks `m` are. -/
structure Agree {S' S C δ : Type} (P : PImpl S' C δ) (I : Impl S C δ) (s' : S') (s : S) (m : Mem) : Prop where
  N : P.N = I.N
  D : P.D = I.D
  exact : P.exact = I.exact
  data : ∀ k li, Finds (P.data s' k li) m (I.data s k li)
  dataU : ∀ k li, Finds (P.dataU s' k li) m (I.dataU s k li)
  new : Finds (P.new s') m (I.new s)
  select : ∀ c n i, Finds (P.select c s' n i) m (I.select c s n i)
  selectU : ∀ c n i, Finds (P.selectU c s' n i) m (I.selectU c s n i)
  curData : ∀ c i, Finds (P.curData c s' i) m (I.curData c s i)
  curDataU : ∀ c i, Finds (P.curDataU c s' i) m (I.curDataU c s i)

theorem priv_agree {S C δ : Type} (I : Impl S C δ) (s : S) (m : Mem) : Agree (privImpl I) I s s m :=
  ⟨rfl, rfl, rfl, fun _ _ => Finds.lift _, fun _ _ => Finds.lift _, Finds.lift _, fun _ _ _ => Finds.lift _,
    fun _ _ _ => Finds.lift _, fun _ _ => Finds.lift _, fun _ _ => Finds.lift _⟩

theorem treeData_finds {α : Type} (D : Nat) (t : Tree α) (h0 : BHeap) (k : Nat) (li : List Nat) :
    Finds (treeData D t k li) h0.block (Bytes.treeData D (t.inMem h0) k li) := by
  refine Finds.bind (getTerminalNode_finds D t.root li) fun r _ => ?_
  refine Finds.bind (getChildIdx_finds r.1 r.2) fun d _ => Finds.priv fun key _ => ?_
  exact Finds.ite (fun _ => Finds.priv fun _ _ => Finds.priv fun _ _ => Finds.ok _) fun _ => Finds.ok _

theorem dense_agree (α : Type) (D : Nat) (t : Tree α) (h0 : BHeap) :
    Agree (denseImpl α D) (Bytes.impl α D) t (t.inMem h0) h0.block := by
  refine ⟨rfl, rfl, rfl, fun k li => treeData_finds D t h0 k li,
    fun k li => Finds.bind (treeData_finds D t h0 k li) fun _ _ => Finds.lift _, Finds.ok _, fun c n i => ?_,
    fun c n i => ?_, fun c i => ?_, fun c i => ?_⟩
  · refine Finds.ite (fun _ => Finds.bind (maskOf_finds _) fun _ _ => Finds.ok _) fun _ => ?_
    refine Finds.bind (Finds.lift _) fun prev _ => Finds.bind (contains_finds _ _) fun has _ =>
      Finds.bind (getChildPtr_finds _ _) fun node _ => ?_
    cases has with
    | true =>
      exact Finds.priv fun _ _ => Finds.priv fun _ _ => Finds.bind (maskOf_finds _) fun _ _ => Finds.ok _
    | false =>
      exact Finds.priv fun _ _ => Finds.priv fun _ _ => Finds.bind (maskOf_finds _) fun _ _ => Finds.ok _
  · refine Finds.ite (fun _ => Finds.bind (maskOf_finds _) fun _ _ => Finds.ok _) fun _ => ?_
    refine Finds.bind (Finds.lift _) fun prev _ => Finds.bind (getChildPtr_finds _ _) fun node _ => ?_
    exact Finds.priv fun _ _ => Finds.bind (maskOf_finds _) fun _ _ => Finds.ok _
  · refine Finds.bind (Finds.lift _) fun node _ => Finds.bind (contains_finds _ _) fun has _ => ?_
    refine Finds.ite (fun _ => ?_) fun _ => Finds.ok _
    exact Finds.bind (getChildIdx_finds _ _) fun _ _ => Finds.priv fun _ _ => Finds.priv fun _ _ => Finds.ok _
  · refine Finds.bind (Finds.lift _) fun node _ => ?_
    exact Finds.bind (getChildIdx_finds _ _) fun _ _ => Finds.priv fun _ _ => Finds.lift _

section
variable {S0' S0 C0 δ0 S1' S1 C1 δ1 : Type} {P0 : PImpl S0' C0 δ0} {I0 : Impl S0 C0 δ0} {P1 : PImpl S1' C1 δ1}
  {I1 : Impl S1 C1 δ1} {s0' : S0'} {s0 : S0} {s1' : S1'} {s1 : S1} {m : Mem}

theorem union_agree (h0 : Agree P0 I0 s0' s0 m) (h1 : Agree P1 I1 s1' s1 m) :
    Agree (unionP P0 P1) (unionImpl I0 I1) (s0', s1') (s0, s1) m := by
  have hs : ∀ (c : C0 × C1) n i, Finds ((unionP P0 P1).select c (s0', s1') n i) m
      ((unionImpl I0 I1).select c (s0, s1) n i) := fun c n i =>
    Finds.bind (h0.select c.1 n i) fun _ _ => Finds.bind (h1.select c.2 n i) fun _ _ => Finds.ok _
  have hc : ∀ (c : C0 × C1) i, Finds ((unionP P0 P1).curData c (s0', s1') i) m
      ((unionImpl I0 I1).curData c (s0, s1) i) := fun c i =>
    Finds.bind (h0.curData c.1 i) fun _ _ => Finds.bind (h1.curData c.2 i) fun _ _ =>
      Finds.ite (fun _ => Finds.ok _) fun _ => Finds.ok _
  have hd : ∀ k li, Finds ((unionP P0 P1).data (s0', s1') k li) m ((unionImpl I0 I1).data (s0, s1) k li) :=
    fun k li => Finds.bind (h0.data k li) fun _ _ => Finds.bind (h1.data k li) fun _ _ =>
      Finds.ite (fun _ => Finds.ok _) fun _ => Finds.ok _
  refine ⟨h0.N, h0.D, ?_, hd, fun k li => Finds.bind (hd k li) fun _ _ => Finds.lift _,
    Finds.bind h0.new fun _ _ => Finds.bind h1.new fun _ _ => Finds.ok _, hs, hs, hc,
    fun c i => Finds.bind (hc c i) fun _ _ => Finds.lift _⟩
  show (P0.exact && P1.exact) = (I0.exact && I1.exact)
  rw [h0.exact, h1.exact]

theorem inter_agree (h0 : Agree P0 I0 s0' s0 m) (h1 : Agree P1 I1 s1' s1 m) :
    Agree (interP P0 P1) (interImpl I0 I1) (s0', s1') (s0, s1) m :=
  ⟨h0.N, h0.D, rfl,
    fun k li => Finds.bind (h0.data k li) fun _ _ => Finds.bind (h1.data k li) fun _ _ => Finds.lift _,
    fun k li => Finds.bind (h0.dataU k li) fun _ _ => Finds.bind (h1.dataU k li) fun _ _ => Finds.ok _,
    Finds.bind h0.new fun _ _ => Finds.bind h1.new fun _ _ => Finds.ok _,
    fun c n i => Finds.bind (h0.select c.1 n i) fun _ _ => Finds.bind (h1.select c.2 n i) fun _ _ => Finds.ok _,
    fun c n i => Finds.bind (h0.selectU c.1 n i) fun _ _ => Finds.bind (h1.selectU c.2 n i) fun _ _ => Finds.ok _,
    fun c i => Finds.bind (h0.curData c.1 i) fun _ _ => Finds.bind (h1.curData c.2 i) fun _ _ => Finds.lift _,
    fun c i => Finds.bind (h0.curDataU c.1 i) fun _ _ => Finds.bind (h1.curDataU c.2 i) fun _ _ => Finds.ok _⟩

theorem map_agree {ε : Type} (f : δ0 → ε) (h0 : Agree P0 I0 s0' s0 m) :
    Agree (mapP P0 f) (mapImpl I0 f) s0' s0 m := by
  refine ⟨h0.N, h0.D, h0.exact, fun k li => Finds.bind (h0.data k li) fun d _ => ?_,
    fun k li => Finds.bind (h0.dataU k li) fun _ _ => Finds.ok _, h0.new, h0.select, h0.selectU,
    fun c i => Finds.bind (h0.curData c i) fun d _ => ?_,
    fun c i => Finds.bind (h0.curDataU c i) fun _ _ => Finds.ok _⟩
  · cases d <;> exact Finds.ok _
  · cases d <;> exact Finds.ok _

theorem Agree.mono {m' : Mem} (h0 : Agree P0 I0 s0' s0 m) (hm : ∀ x b, m x = some b → m' x = some b) :
    Agree P0 I0 s0' s0 m' := by
  have key : ∀ {β : Type} {p : Prog β} {x : R β}, Finds p m x → Finds p m' x :=
    fun f b e h hw Z => f b e h (fun y b hy => hw y b (hm y b hy)) Z
  exact ⟨h0.N, h0.D, h0.exact, fun k li => key (h0.data k li), fun k li => key (h0.dataU k li), key h0.new,
    fun c n i => key (h0.select c n i), fun c n i => key (h0.selectU c n i), fun c i => key (h0.curData c i),
    fun c i => key (h0.curDataU c i)⟩

/-! ## `get` and iteration -/

theorem Agree.get (h0 : Agree P0 I0 s0' s0 m) (k : Nat) : Finds (P0.get s0' k) m (I0.get s0 k) := by
  unfold PImpl.get Impl.get
  rw [h0.N, h0.D]
  exact Finds.priv fun _ _ => Finds.priv fun _ _ => h0.data _ _

theorem Agree.iterNew (h0 : Agree P0 I0 s0' s0 m) : Finds (P0.iterNew s0') m (I0.iterNew s0) := by
  unfold PImpl.iterNew Impl.iterNew
  rw [h0.N, h0.D]
  refine Finds.bind h0.new fun c _ => Finds.bind (h0.selectU c 0 0) fun r _ => ?_
  exact Finds.ite (fun _ => Finds.err) fun _ => Finds.ok _

theorem Agree.iterVisit (h0 : Agree P0 I0 s0' s0 m) (st : IterSt C0) (i : Nat) :
    Finds (P0.iterVisit s0' st i) m (I0.iterVisit s0 st i) := by
  unfold PImpl.iterVisit Impl.iterVisit
  refine Finds.priv fun it _ => Finds.priv fun x _ => Finds.priv fun iters _ => ?_
  obtain ⟨o, it'⟩ := x
  cases o with
  | none => exact Finds.ok _
  | some index =>
    exact Finds.priv fun _ _ => Finds.bind (h0.selectU _ _ _) fun _ _ => Finds.priv fun _ _ => Finds.ok _

theorem rangeRev_finds {σ : Type} {v : σ → Nat → R (σ × Bool)} {w : σ → Nat → Prog (σ × Bool)} (frm : Nat)
    (hv : ∀ s i, Finds (w s i) m (v s i)) : ∀ (n : Nat) (s : σ),
    Finds (rangeRev w frm n s) m (iterateAsRangeRev v frm n s)
  | 0, s => Finds.ok _
  | n + 1, s => by
    refine Finds.bind (hv s n) fun r _ => ?_
    refine Finds.ite (fun _ => Finds.ok _) fun _ => Finds.ite (fun _ => Finds.ok _) fun _ => ?_
    exact rangeRev_finds frm hv n r.1

theorem Agree.iterLoop (h0 : Agree P0 I0 s0' s0 m) : ∀ (fuel : Nat) (st : IterSt C0),
    Finds (P0.iterLoop s0' fuel st) m (I0.iterLoop s0 fuel st)
  | 0, _ => Finds.err
  | fuel + 1, st => by
    unfold PImpl.iterLoop Impl.iterLoop
    refine Finds.priv fun it _ => Finds.priv fun x _ => ?_
    obtain ⟨o, it'⟩ := x
    cases o with
    | some index => exact Finds.ok _
    | none =>
      rw [h0.D]
      refine Finds.bind (rangeRev_finds 0 h0.iterVisit _ _) fun r _ => ?_
      exact Finds.ite (fun _ => h0.iterLoop fuel r.1) fun _ => Finds.ok _

theorem Agree.iterNext (h0 : Agree P0 I0 s0' s0 m) (fuel : Nat) (st : IterSt C0) :
    Finds (P0.iterNext s0' fuel st) m (I0.iterNext s0 fuel st) := by
  unfold PImpl.iterNext Impl.iterNext
  refine Finds.bind (h0.iterLoop fuel st) fun r _ => ?_
  obtain ⟨o, st'⟩ := r
  cases o with
  | none => exact Finds.ok _
  | some x =>
    rw [h0.N, h0.D]
    exact Finds.bind (h0.curDataU _ _) fun _ _ => Finds.priv fun _ _ => Finds.ok _

theorem Agree.iterTake (h0 : Agree P0 I0 s0' s0 m) (fuel : Nat) : ∀ (n : Nat) (st : IterSt C0),
    Finds (P0.iterTake s0' fuel n st) m (I0.iterTake s0 fuel n st)
  | 0, _ => Finds.ok _
  | n + 1, st => Finds.bind (h0.iterNext fuel st) fun r _ => Finds.bind (h0.iterTake fuel n r.2) fun _ _ => Finds.ok _

theorem Agree.iterRun (h0 : Agree P0 I0 s0' s0 m) (fuel n : Nat) :
    Finds (P0.iterRun s0' fuel n) m (I0.iterRun s0 fuel n) :=
  Finds.bind h0.iterNew fun st _ => h0.iterTake fuel n st

end

end Hibit.Threads
