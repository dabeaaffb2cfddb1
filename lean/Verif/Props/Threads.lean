import Verif.Threads.Mat
import Verif.Threads.At
import Verif.Threads.Panic
import Verif.IterBound
import Verif.Props.Shared
/-!
# Property C86: DenseTrees in different threads

Several threads work on DenseTrees: `DenseTree` is neither `Send` nor `Sync`, but all trees share the
static empty nodes (`unsafe impl Sync for EmptyNode`, node.rs:70) and the global allocator. Every operation is a
sequence of single memory accesses (`Threads/Model.lean`), and between any two of them any other thread may make
accesses of its own: a reachable state is one that some schedule reaches. Other code allocates, writes and frees
memory in between.

Readers (`get`, iteration, `materialize`, of a tree or of a combination of trees) borrow the trees they read: as
long as they run, other readers may borrow the same trees, and nobody may modify or drop them.
-/
namespace Hibit.Props
open Hibit Hibit.Dense

namespace Threads
open Hibit.Threads

section
variable {α β : Type}

/-- The result of an operation: the tree, unless there is none (any more), the value returned, the values dropped, and
what a reader makes of what it has read. -/
structure Result (α β : Type) where
  tree : Option (Tree α)
  value : Option α
  dropped : List α
  found : Option β

/-- The state of a variable that can hold a tree. -/
inductive Var (α β : Type) where
  | empty
  | idle (t : Tree α)
  /-- a thread is in the middle of an operation; the rest of it is the program `p` -/
  | busy (p : Prog (Result α β))

/-- The state of the whole program. -/
structure World (α β : Type) where
  mem : Bytes.BHeap
  vars : Nat → Var α β

/-- What the programmer thinks of a variable. -/
inductive Task (α β : Type) where
  | gone
  | holds (H : Held α)
  /-- an operation is going on: it will return, drop and find values that satisfy `Q`; `next` is what the variable will
  hold then; until then the trees in the variables `uses` are borrowed -/
  | doing (Q : Option α → List α → Option β → Prop) (next : Option (Held α)) (uses : List Nat)

/-- What the programmer thinks: the variables, and the blocks that belong to other code. -/
structure Meaning (α β : Type) where
  vars : Nat → Task α β
  own : Bytes.Mem

/-- A variable after an operation. -/
def Var.after : Option (Tree α) → Var α β
  | none => .empty
  | some t => .idle t

/-- A variable after an operation. -/
def Task.after : Option (Held α) → Task α β
  | none => .gone
  | some H => .holds H

/-- Nobody borrows the tree in variable `i`. -/
def Meaning.NotLent (A : Meaning α β) (i : Nat) : Prop := ∀ j Q next uses, A.vars j = .doing Q next uses → i ∉ uses

/-- `DenseTree::<_, D>::default()` as a task. -/
def newTask (α β : Type) (D : Nat) : Prog (Result α β) := do
  let t ← newTree α D
  return ⟨some t, none, [], none⟩

/-- An operation as a task. -/
def opTask (β : Type) (D : Nat) (t : Tree α) (o : Op α) : Prog (Result α β) := do
  let r ← opProg D t o
  return ⟨some r.1, r.2.1, r.2.2, none⟩

/-- `get_or_insert(k)` with a `T::default()` that panics if it is called, as a task; the thread catches the panic. -/
def panicTask (β : Type) (D : Nat) (t : Tree α) (k : Nat) : Prog (Result α β) := do
  let r ← getOrInsertPanic D t k
  return ⟨some r.1, r.2, [], none⟩

/-- `drop` as a task. -/
def dropTask (β : Type) (D : Nat) (t : Tree α) : Prog (Result α β) := do
  let vs ← dropTree D t
  return ⟨none, none, vs, none⟩

/-- `tree.get(k)` as a task. -/
def getTask (α : Type) {S C δ : Type} (P : PImpl S C δ) (s : S) (k : Nat) (f : Option δ → β) : Prog (Result α β) := do
  let r ← P.get s k
  return ⟨none, none, [], some (f r)⟩

/-- `tree.iter()` and `n` calls of `next()` as a task. -/
def iterTask (α : Type) {S C δ : Type} (P : PImpl S C δ) (s : S) (fuel n : Nat) (f : List (Option (Nat × δ)) → β) :
    Prog (Result α β) := do
  let r ← P.iterRun s fuel n
  return ⟨none, none, [], some (f r)⟩

/-- `tree.materialize()` as a task. -/
def matTask (β : Type) {S C : Type} (P : PImpl S C α) (s : S) : Prog (Result α β) := do
  let t ← materialize P s
  return ⟨some t, none, [], none⟩

/-- Tree expressions over the variables of a state: the methods of the tree as programs, its content, and the
variables it borrows. `c`: the cursor's checked `data` obeys the contract; `x`: so does the tree's claim about exact
hierarchy. -/
inductive Expr (W : World α β) (A : Meaning α β) : (c x : Bool) → {S C δ : Type} → PImpl S C δ → S →
    (Nat → Option δ) → List Nat → Prop
  /-- a DenseTree in a variable -/
  | var {i t g D M} : W.vars i = .idle t → A.vars i = .holds ⟨g, D, M⟩ → g ≠ .damaged →
      Expr W A true (decide (g = .full)) (denseImpl α D) t M [i]
  /-- a tree that belongs to the thread alone: a SparseTree, or a tree of a user-defined type -/
  | priv {S C δ : Type} {I : Impl S C δ} {s : S} {M : Nat → Option δ} : IsTreeC I s M →
      Expr W A true true (privImpl I) s M []
  | map {c x : Bool} {S C δ ε : Type} {P : PImpl S C δ} {s : S} {M : Nat → Option δ} {us : List Nat} (f : δ → ε) :
      Expr W A c x P s M us → Expr W A c x (mapP P f) s (fun k => (M k).map f) us
  | union {x0 x1 : Bool} {S0 C0 δ0 S1 C1 δ1 : Type} {P0 : PImpl S0 C0 δ0} {P1 : PImpl S1 C1 δ1} {a : S0} {b : S1}
      {M0 : Nat → Option δ0} {M1 : Nat → Option δ1} {us0 us1 : List Nat} : P0.N = P1.N → P0.D = P1.D →
      Expr W A true x0 P0 a M0 us0 → Expr W A true x1 P1 b M1 us1 →
      Expr W A true (x0 && x1) (unionP P0 P1) (a, b) (unionMap M0 M1) (us0 ++ us1)
  | inter {c x0 x1 : Bool} {S0 C0 δ0 S1 C1 δ1 : Type} {P0 : PImpl S0 C0 δ0} {P1 : PImpl S1 C1 δ1} {a : S0} {b : S1}
      {M0 : Nat → Option δ0} {M1 : Nat → Option δ1} {us0 us1 : List Nat} : P0.N = P1.N → P0.D = P1.D →
      Expr W A c x0 P0 a M0 us0 → Expr W A c x1 P1 b M1 us1 →
      Expr W A c true (interP P0 P1) (a, b) (interMap M0 M1) (us0 ++ us1)
  /-- `multi_union` of a list of trees of one type, given with their contents and what they borrow (of no trees: it reads
  nothing) -/
  | multiUnion {x : Bool} {S C δ : Type} {P : PImpl S C δ} {l : List (S × (Nat → Option δ) × List Nat)} :
      2 ≤ P.D → l ≠ [] → l.length ≤ 32 → (∀ a ∈ l, Expr W A true x P a.1 a.2.1 a.2.2) →
      Expr W A false x (multiUnionP P) (l.map (·.1)) (multiUnionMap (l.map (·.2.1))) (l.flatMap (·.2.2))
  /-- `multi_intersection` of a list of trees of one type -/
  | multiInter {c x : Bool} {S C δ : Type} {P : PImpl S C δ} {l : List (S × (Nat → Option δ) × List Nat)} :
      l ≠ [] → l.length ≤ 32 → (∀ a ∈ l, Expr W A c x P a.1 a.2.1 a.2.2) →
      Expr W A true true (multiInterP P) (l.map (·.1)) (multiInterMap (l.map (·.2.1))) (l.flatMap (·.2.2))

/-- **C86** for `multi_map_fold`: a fold over an expression is an expression whose content is the fold of the values, from the left,
so all of the following applies to it. -/
theorem C86_fold {W : World α β} {A : Meaning α β} {c x : Bool} {S C δ ε : Type} {P : PImpl S C (List δ)} {s : S}
    {M : Nat → Option (List δ)} {us : List Nat} (init : ε) (f : ε → δ → ε) (h : Expr W A c x P s M us) :
    Expr W A c x (foldP P init f) s (fun k => (M k).map fun ds => ds.foldl f init) us := .map _ h

/-- The grade of the tree that `materialize` makes (C65). -/
inductive Makes {S C : Type} (P : PImpl S C α) (M : Nat → Option α) : Bool → Grade → Prop
  | exact : P.exact = true → Makes P M true .full
  | loose : P.exact = true → Makes P M false .loose
  | inexact {x} : P.exact = false → (2 ≤ P.D → ∃ k, k < 64 ^ P.D ∧ M k ≠ none) → Makes P M x .block

/-- The states that schedules reach, and what they mean. -/
inductive Run : World α β → Meaning α β → Prop
  /-- At the start there are no trees, and the memory is whatever it is. -/
  | start {m : Bytes.BHeap} : Bytes.Finite m.block → Run ⟨m, fun _ => .empty⟩ ⟨fun _ => .gone, m.block⟩
  /-- A thread calls `DenseTree::<_, D>::default()`. -/
  | new {W A i D} : Run W A → W.vars i = .empty → A.vars i = .gone → 1 ≤ D → D ≤ 9 →
      Run ⟨W.mem, upd W.vars i (.busy (newTask α β D))⟩
        ⟨upd A.vars i (.doing (fun v ds _ => v = none ∧ ds = []) (some ⟨.full, D, emptyMap⟩) []), A.own⟩
  /-- A thread calls an operation on its tree, that nobody has borrowed. -/
  | op {W A i t g g' D M} {o : Op α} : Run W A → W.vars i = .idle t → A.vars i = .holds ⟨g, D, M⟩ → A.NotLent i →
      LaterHistory D M [o] → Allowed M o g g' →
      Run ⟨W.mem, upd W.vars i (.busy (opTask β D t o))⟩
        ⟨upd A.vars i (.doing (fun v ds _ => v = (o.spec M).2.1 ∧ ds = (o.spec M).2.2)
          (some ⟨g', D, (o.spec M).1⟩) []), A.own⟩
  /-- A thread calls `get_or_insert(k)` on its tree, with a `T::default()` that panics if it is called, and catches the
  panic. -/
  | panics {W A i t g D M k} : Run W A → W.vars i = .idle t → A.vars i = .holds ⟨g, D, M⟩ → A.NotLent i →
      g = .full ∨ g = .loose → k < 64 ^ D →
      Run ⟨W.mem, upd W.vars i (.busy (panicTask β D t k))⟩
        ⟨upd A.vars i (.doing (fun v ds _ => v = M k ∧ ds = []) (some ⟨.loose, D, M⟩) []), A.own⟩
  /-- A thread drops its tree, that nobody has borrowed. -/
  | drop {W A i t H} : Run W A → W.vars i = .idle t → A.vars i = .holds H → A.NotLent i →
      Run ⟨W.mem, upd W.vars i (.busy (dropTask β H.D t))⟩
        ⟨upd A.vars i (.doing (fun v ds _ => v = none ∧ List.Perm ds (valuesOf (64 ^ H.D) H.map)) none []), A.own⟩
  /-- A thread calls `get(k)` on a tree expression; `i` is a variable for the task. -/
  | get {W A i c x k us} {S C δ : Type} {P : PImpl S C δ} {s : S} {M : Nat → Option δ} (f : Option δ → β) : Run W A →
      W.vars i = .empty → A.vars i = .gone → Expr W A c x P s M us → k < width P.N ^ P.D → k < 2 ^ 64 - 1 →
      Run ⟨W.mem, upd W.vars i (.busy (getTask α P s k f))⟩
        ⟨upd A.vars i (.doing (fun _ _ r => r = some (f (M k))) none us), A.own⟩
  /-- A thread calls `iter()` on a tree expression, and `next()` `n` times; `fuel` bounds the rounds of the loop of
  `next` (iter.rs:86), any bound from `wt` on will do. -/
  | iter {W A i c x n fuel us} {S C δ : Type} {P : PImpl S C δ} {s : S} {M : Nat → Option δ}
      (f : List (Option (Nat × δ)) → β) : Run W A → W.vars i = .empty → A.vars i = .gone → Expr W A c x P s M us →
      wt (width P.N) P.D ≤ fuel →
      Run ⟨W.mem, upd W.vars i (.busy (iterTask α P s fuel n f))⟩
        ⟨upd A.vars i (.doing (fun _ _ r =>
          r = some (f ((List.range n).map (fun k => (listing (width P.N ^ P.D) M)[k]?)))) none us), A.own⟩
  /-- A thread calls `materialize()` on a tree expression. -/
  | mat {W A i c x g us} {S C : Type} {P : PImpl S C α} {s : S} {M : Nat → Option α} : Run W A →
      W.vars i = .empty → A.vars i = .gone → Expr W A c x P s M us → Makes P M x g → P.N = 1 → P.D ≤ 9 →
      card (64 ^ P.D) M < 2 ^ 32 →
      Run ⟨W.mem, upd W.vars i (.busy (matTask β P s))⟩
        ⟨upd A.vars i (.doing (fun v ds _ => v = none ∧ ds = [])
          (some ⟨g, P.D, restrict (64 ^ P.D) M⟩) us), A.own⟩
  /-- Any thread in the middle of an operation makes its next memory access. -/
  | access {W A i a k r mem'} : Run W A → W.vars i = .busy (.act a k) → a.exec W.mem = .ok (r, mem') →
      Run ⟨mem', upd W.vars i (.busy (k r))⟩ A
  /-- An operation returns. -/
  | finish {W A i r Q next us} : Run W A → W.vars i = .busy (.ret r) → A.vars i = .doing Q next us →
      Run ⟨W.mem, upd W.vars i (.after r.tree)⟩ ⟨upd A.vars i (.after next), A.own⟩
  /-- Other code allocates a block. -/
  | alloc {W A} (b : Bytes.Block) : Run W A →
      Run ⟨(W.mem.alloc b).1, W.vars⟩ ⟨A.vars, upd A.own (W.mem.alloc b).2 (some b)⟩
  /-- Other code writes to a block of its own. -/
  | write {W A x b0} (b : Bytes.Block) : Run W A → A.own x = some b0 →
      Run ⟨W.mem.put x b, W.vars⟩ ⟨A.vars, upd A.own x (some b)⟩
  /-- Other code frees a block of its own. -/
  | free {W A x b mem'} : Run W A → A.own x = some b → W.mem.dealloc x b.length = .ok mem' →
      Run ⟨mem', W.vars⟩ ⟨A.vars, upd A.own x none⟩

/-! ## Data races -/

/-- The access reads the byte at offset `off` of the block at `p`. -/
def Reads : Act → Ptr → Nat → Prop
  | .load p off size _, q, x => q = p ∧ off ≤ x ∧ x < off + size
  | .move p src _ size _, q, x => q = p ∧ src ≤ x ∧ x < src + size
  | .realloc p _ _, q, _ => q = p
  | _, _, _ => False

/-- The access writes the byte, or frees its block. -/
def Writes : Act → Ptr → Nat → Prop
  | .store p off _ v, q, x => q = p ∧ off ≤ x ∧ x < off + v.length
  | .move p _ dst size _, q, x => q = p ∧ dst ≤ x ∧ x < dst + size
  | .free p _, q, _ => q = p
  | .realloc p _ _, q, _ => q = p
  | _, _, _ => False

/-- The access reads or writes the byte. -/
def Touches (a : Act) (p : Ptr) (x : Nat) : Prop := Reads a p x ∨ Writes a p x

/-- Two accesses race: they touch the same byte, and one of them writes it. -/
def Race (a b : Act) : Prop := ∃ p x, (Touches a p x ∧ Writes b p x) ∨ (Writes a p x ∧ Touches b p x)

/-! ## Invariant -/

/-- The blocks `m` are those of the tree `t`, which is `H`. -/
def TreeIs (t : Tree α) (H : Held α) (m : Bytes.Mem) : Prop :=
  ∃ ρ, ∃ ct : DT α, (∀ c A, Bytes.TRep ρ (fun _ => none) ct (t.inMem ⟨m, c, A⟩)) ∧ Graded ct H

/-- The result of an operation, and the blocks it leaves. -/
def Ends (next : Option (Held α)) (t : Option (Tree α)) (m : Bytes.Mem) : Prop :=
  (∀ H, next = some H → ∃ t', t = some t' ∧ TreeIs t' H m) ∧ (next = none → t = none ∧ ∀ x, m x = none)

/-- The blocks that the variables `us` own. -/
def lent (O : Nat → Bytes.Mem) (us : List Nat) : Bytes.Mem := fun x => us.findSome? (fun u => O u x)

/-- The blocks `z` and `m`. -/
def both (z m : Bytes.Mem) : Bytes.Mem := fun x => if dom z x then z x else m x

/-- The blocks `m` except those at the addresses of `z`. -/
def without (z m : Bytes.Mem) : Bytes.Mem := fun x => if dom z x then none else m x

/-- The variable, with its own blocks `m` and the borrowed ones `z`, is what the programmer thinks. -/
inductive VarOk (z : List Nat → Bytes.Mem) : Var α β → Task α β → Bytes.Mem → Prop
  | gone {m} : (∀ x, m x = none) → VarOk z .empty .gone m
  | holds {t H m} : TreeIs t H m → VarOk z (.idle t) (.holds H) m
  | doing {p Q next us m} : SafeF (dom (z us)) p (both (z us) m)
      (fun r m' => Q r.value r.dropped r.found ∧ Ends next r.tree (without (z us) m')) →
      VarOk z (.busy p) (.doing Q next us) m

/-- Every variable has blocks of its own, and borrowed trees are there. -/
structure Inv (W : World α β) (A : Meaning α β) (O : Nat → Bytes.Mem) : Prop where
  within : ∀ i, Within (O i) W.mem
  disj : ∀ i j x, O i x ≠ none → O j x ≠ none → i = j
  env : ∀ i x, O i x ≠ none → A.own x = none
  rest : ∀ x, (∀ i, O i x = none) → W.mem.block x = A.own x
  fin : Bytes.Finite W.mem.block
  ok : ∀ i, VarOk (lent O) (W.vars i) (A.vars i) (O i)
  lends : ∀ i Q next us, A.vars i = .doing Q next us → ∀ u ∈ us, ∃ H, A.vars u = .holds H

theorem lent_some {O : Nat → Bytes.Mem} {us : List Nat} {x : Nat} {b : Bytes.Block} (h : lent O us x = some b) :
    ∃ u ∈ us, O u x = some b := List.exists_of_findSome?_eq_some h

theorem lent_of {W : World α β} {A : Meaning α β} {O : Nat → Bytes.Mem} (J : Inv W A O) {us : List Nat} {u x : Nat}
    {b : Bytes.Block} (hu : u ∈ us) (h : O u x = some b) : lent O us x = some b := by
  cases e : lent O us x with
  | none =>
    have := List.findSome?_eq_none_iff.mp e u hu
    rw [h] at this; cases this
  | some b' =>
    obtain ⟨u', hu', e'⟩ := lent_some e
    have := J.disj u u' x (by rw [h]; simp) (by rw [e']; simp)
    subst this
    rw [h] at e'; exact e'.symm

theorem lent_within {W : World α β} {A : Meaning α β} {O : Nat → Bytes.Mem} (J : Inv W A O) (us : List Nat) :
    Within (lent O us) W.mem := fun x b h => by
  obtain ⟨u, -, e⟩ := lent_some h
  exact J.within u x b e

theorem lent_congr {O O' : Nat → Bytes.Mem} {us : List Nat} (h : ∀ u ∈ us, O' u = O u) : lent O' us = lent O us := by
  funext x
  unfold lent
  induction us with
  | nil => rfl
  | cons u us ih =>
    rw [List.findSome?_cons, List.findSome?_cons, h u List.mem_cons_self, ih fun v hv => h v (List.mem_cons_of_mem _ hv)]

theorem dom_some {z : Bytes.Mem} {x : Nat} (h : dom z x = true) : ∃ b, z x = some b := by
  unfold dom at h
  exact Option.isSome_iff_exists.mp h

theorem dom_not {z : Bytes.Mem} {x : Nat} (h : ¬ dom z x = true) : z x = none := by
  unfold dom at h
  simpa using h

theorem both_in {z m : Bytes.Mem} {x : Nat} (h : dom z x = true) : both z m x = z x := if_pos h
theorem both_out {z m : Bytes.Mem} {x : Nat} (h : ¬ dom z x = true) : both z m x = m x := if_neg h
theorem without_in {z m : Bytes.Mem} {x : Nat} (h : dom z x = true) : without z m x = none := if_pos h
theorem without_out {z m : Bytes.Mem} {x : Nat} (h : ¬ dom z x = true) : without z m x = m x := if_neg h

theorem guard_all {γ : Type} (p : Prog γ) : p.guard (dom fun _ => none) = p := by
  induction p with
  | ret b => rfl
  | err e => rfl
  | act a k ih =>
    have hs : a.spares (dom fun _ => none) = true := by
      unfold Act.spares
      split <;> rfl
    show (if a.spares (dom fun _ => none) then Prog.act a (fun r => (k r).guard (dom fun _ => none)) else .err .ub) = _
    rw [if_pos hs]
    congr 1
    funext r
    exact ih r

/-- Nothing is borrowed. -/
theorem alone_safe {p : Prog (Result α β)} {m : Bytes.Mem} {O : Nat → Bytes.Mem}
    {Q : Result α β → Bytes.Mem → Prop} (h : Safe p m Q) :
    SafeF (dom (lent O [])) p (both (lent O []) m) (fun r m' => Q r (without (lent O []) m')) := by
  unfold SafeF
  show Safe (p.guard (dom fun _ => none)) m Q
  rw [guard_all]
  exact h

theorem finite_within {m : Bytes.Mem} {h : Bytes.BHeap} (hw : Within m h) (hf : Bytes.Finite h.block) :
    Bytes.Finite m := by
  obtain ⟨B, hB⟩ := hf
  refine ⟨B, fun x hx => ?_⟩
  cases e : m x with
  | none => rfl
  | some b => have := hw x b e; rw [hB x hx] at this; cases this

theorem finite_none : Bytes.Finite (fun _ => none) := ⟨0, fun _ _ => rfl⟩

/-- The representation depends on the blocks only. -/
theorem trep_any {ρ : Bytes.Ren} {ct : DT α} {t : Tree α} {m : Bytes.Mem} {c : Nat} {A : Bytes.Allocator}
    (T : Bytes.TRep ρ (fun _ => none) ct (t.inMem ⟨m, c, A⟩)) (c' : Nat) (A' : Bytes.Allocator) :
    Bytes.TRep ρ (fun _ => none) ct (t.inMem ⟨m, c', A'⟩) :=
  ⟨⟨T.heap.dom, T.heap.live, T.heap.inj, T.heap.frame, T.heap.fin⟩, T.root, T.data, T.keys⟩

theorem safe_then {β γ : Type} {p : Prog β} {f : β → γ} {m : Bytes.Mem} {Q : γ → Bytes.Mem → Prop}
    (h : Safe p m (fun b m' => Q (f b) m')) : Safe (p >>= fun b => Prog.ret (f b)) m Q :=
  Safe.bind (fun _ _ q => q) p m h

theorem newTask_safe {D : Nat} (h1 : 1 ≤ D) (h9 : D ≤ 9) {m : Bytes.Mem} (hm : ∀ x, m x = none)
    (A0 : Bytes.Allocator) : Safe (newTask α β D) m (fun r m' => (r.value = none ∧ r.dropped = []) ∧
      Ends (some ⟨.full, D, emptyMap⟩) r.tree m') := by
  have hm : m = fun _ => none := funext hm
  subst hm
  refine safe_then (f := fun t : Tree α => (⟨some t, none, [], none⟩ : Result α β)) (safe_of_alone _ _ (fun c A => ?_) ⟨A0⟩)
  obtain ⟨t0, e0, R0⟩ := default_rep α h1 h9
  obtain ⟨bt, e, ρ, T⟩ := Bytes.default_sim D (bh := ⟨fun _ => none, c, A⟩) finite_none t0 e0
  refine ⟨_, _, newTree_ref D _ bt e, ⟨rfl, rfl⟩, fun H e => ?_, fun e => (by cases e)⟩
  cases e
  exact ⟨_, rfl, ρ, t0, fun c' A' => trep_any (t := ofBT bt) T c' A', ⟨h1, h9⟩, by rw [card_emptyMap]; decide, R0⟩

theorem opTask_safe {D : Nat} {t : Tree α} {g g' : Grade} {M : Nat → Option α} {o : Op α} {m : Bytes.Mem}
    (hT : TreeIs t ⟨g, D, M⟩ m) (ho : LaterHistory D M [o]) (ha : Allowed M o g g') (A0 : Bytes.Allocator) :
    Safe (opTask β D t o) m (fun r m' => (r.value = (o.spec M).2.1 ∧ r.dropped = (o.spec M).2.2) ∧
      Ends (some ⟨g', D, (o.spec M).1⟩) r.tree m') := by
  obtain ⟨ρ, ct, T, U⟩ := hT
  refine safe_then (f := fun r : Tree α × Option α × List α => (⟨some r.1, r.2.1, r.2.2, none⟩ : Result α β))
    (safe_of_alone _ _ (fun c A => ?_) ⟨A0⟩)
  obtain ⟨t', e1, U'⟩ := graded_step U ho ha
  obtain ⟨⟨bt', out'⟩, e', ρ', -, T', q⟩ := Bytes.step_sim D (T c A) o _ e1
  simp only at q T'
  subst q
  refine ⟨_, _, opProg_ref D (t.inMem ⟨m, c, A⟩) o _ e', ⟨rfl, rfl⟩, fun H e => ?_, fun e => (by cases e)⟩
  cases e
  exact ⟨_, rfl, ρ', t', fun c' A' => trep_any (t := ofBT bt') T' c' A', U'⟩

theorem panicTask_safe {D : Nat} {t : Tree α} {g : Grade} {M : Nat → Option α} {k : Nat} {m : Bytes.Mem}
    (hT : TreeIs t ⟨g, D, M⟩ m) (hg : g = .full ∨ g = .loose) (hk : k < 64 ^ D) (A0 : Bytes.Allocator) :
    Safe (panicTask β D t k) m (fun r m' => (r.value = M k ∧ r.dropped = []) ∧
      Ends (some ⟨.loose, D, M⟩) r.tree m') := by
  obtain ⟨ρ, ct, T, U⟩ := hT
  refine safe_then (f := fun r : Tree α × Option α => (⟨some r.1, r.2, [], none⟩ : Result α β))
    (safe_of_alone _ _ (fun c A => ?_) ⟨A0⟩)
  obtain ⟨t', e1, U'⟩ := graded_panic U hg hk
  obtain ⟨⟨bt', out'⟩, e', ρ', -, T', q⟩ := Bytes.getOrInsertPanic_sim D (T c A) k _ e1
  simp only at q T'
  subst q
  refine ⟨_, _, getOrInsertPanic_ref D (t.inMem ⟨m, c, A⟩) k _ e', ⟨rfl, rfl⟩, fun H e => ?_, fun e => (by cases e)⟩
  cases e
  exact ⟨_, rfl, ρ', t', fun c' A' => trep_any (t := ofBT bt') T' c' A', U'⟩

theorem dropTask_safe {t : Tree α} {H : Held α} {m : Bytes.Mem} (hT : TreeIs t H m) (A0 : Bytes.Allocator) :
    Safe (dropTask β H.D t) m (fun r m' => (r.value = none ∧ List.Perm r.dropped (valuesOf (64 ^ H.D) H.map)) ∧
      Ends none r.tree m') := by
  obtain ⟨ρ, ct, T, U⟩ := hT
  refine safe_then (f := fun vs : List α => (⟨none, none, vs, none⟩ : Result α β)) (safe_of_alone _ _ (fun c A => ?_) ⟨A0⟩)
  obtain ⟨vs', heap', ed, hp, hgone⟩ := graded_drop U
  obtain ⟨⟨vs2, mem2⟩, e', rfl, HR⟩ := Bytes.dropImpl_sim _ (T c A) _ ed
  have hg := Bytes.HeapRep.gone HR hgone
  refine ⟨_, _, dropTree_ref H.D (t.inMem ⟨m, c, A⟩) _ e', ⟨rfl, hp⟩, fun H e => (by cases e), fun _ => ⟨rfl, fun x => ?_⟩⟩
  exact congrFun hg x

/-! ## Readers -/

theorem iterLoop_relax {S C δ : Type} (x : Bool) (I : Impl S C δ) (s : S) : ∀ (fuel : Nat) (st : IterSt C),
    (relax x I).iterLoop s fuel st = I.iterLoop s fuel st
  | 0, _ => rfl
  | fuel + 1, st => by
    unfold Impl.iterLoop
    simp only [iterLoop_relax x I s fuel]
    rfl

theorem iterTake_relax {S C δ : Type} (x : Bool) (I : Impl S C δ) (s : S) (fuel : Nat) : ∀ (n : Nat) (st : IterSt C),
    (relax x I).iterTake s fuel n st = I.iterTake s fuel n st
  | 0, _ => rfl
  | n + 1, st => by
    unfold Impl.iterTake Impl.iterNext
    simp only [iterLoop_relax x I s fuel, iterTake_relax x I s fuel n]
    rfl

theorem iterRun_relax {S C δ : Type} (x : Bool) (I : Impl S C δ) (s : S) (fuel n : Nat) :
    (relax x I).iterRun s fuel n = I.iterRun s fuel n := by
  unfold Impl.iterRun
  simp only [iterTake_relax x I s fuel n]
  rfl

/-- The content of a tree is what it is. -/
theorem isTree_unique {S C δ : Type} {I : Impl S C δ} {s : S} {M M' : Nat → Option δ} (h : IsTree I s M)
    (h' : IsTree I s M') {i : Nat} (hi : i < width I.N ^ I.D) : M i = M' i := by
  obtain ⟨T, K, L, e⟩ := h
  obtain ⟨T', K', L', e'⟩ := h'
  have hv := Sparse.validPath_path (N := I.N) hi
  have h1 := L.data_eq _ hv (path_length _ _ _)
  have h2 := L'.data_eq _ hv (path_length _ _ _)
  rw [h1] at h2
  rw [← e i hi, ← e' i hi]
  exact Except.ok.inj h2

theorem isTree_congr {S C δ : Type} {I : Impl S C δ} {s : S} {M M' : Nat → Option δ} (h : IsTree I s M)
    (hm : ∀ i, i < width I.N ^ I.D → M i = M' i) : IsTree I s M' := by
  obtain ⟨T, K, L, e⟩ := h
  exact ⟨T, K, L, fun i hi => (e i hi).trans (hm i hi)⟩

theorem isTreeC_congr {S C δ : Type} {I : Impl S C δ} {s : S} {M M' : Nat → Option δ} (h : IsTreeC I s M)
    (hm : ∀ i, i < width I.N ^ I.D → M i = M' i) : IsTreeC I s M' := by
  obtain ⟨T, K, L, e⟩ := h
  exact ⟨T, K, L, fun i hi => (e i hi).trans (hm i hi)⟩

open Classical in
/-- The contents of a list of trees, as a function of the tree. -/
theorem contents {S C δ : Type} {I : Impl S C δ} {l : List (S × (Nat → Option δ) × List Nat)}
    (h : ∀ a ∈ l, IsTree I a.1 a.2.1) : ∃ content : S → Nat → Option δ,
      (∀ s ∈ l.map (·.1), ∃ a ∈ l, a.1 = s ∧ a.2.1 = content s) ∧
      ∀ i, i < width I.N ^ I.D → ∀ a ∈ l, content a.1 i = a.2.1 i := by
  let content : S → Nat → Option δ := fun s =>
    if hs : ∃ a, a ∈ l ∧ a.1 = s then (Classical.choose hs).2.1 else fun _ => none
  have key : ∀ s, (hs : ∃ a, a ∈ l ∧ a.1 = s) → ∃ a ∈ l, a.1 = s ∧ a.2.1 = content s := by
    intro s hs
    obtain ⟨h1, h2⟩ := Classical.choose_spec hs
    exact ⟨_, h1, h2, by show _ = dite _ _ _; rw [dif_pos hs]⟩
  refine ⟨content, fun s hs => ?_, fun i hi a ha => ?_⟩
  · obtain ⟨a, ha, e⟩ := List.mem_map.mp hs
    exact key s ⟨a, ha, e⟩
  · obtain ⟨b, hb, e1, e2⟩ := key a.1 ⟨a, ha, rfl⟩
    rw [← e2]
    have := h b hb
    rw [e1] at this
    exact isTree_unique this (h a ha) hi

theorem multiUnionMap_congr {S δ : Type} {l : List (S × (Nat → Option δ) × List Nat)} {content : S → Nat → Option δ}
    {i : Nat} (h : ∀ a ∈ l, content a.1 i = a.2.1 i) :
    multiUnionMap ((l.map (·.1)).map content) i = multiUnionMap (l.map (·.2.1)) i := by
  have e : ((l.map (·.1)).map content).filterMap (fun M => M i) = (l.map (·.2.1)).filterMap (fun M => M i) := by
    induction l with
    | nil => rfl
    | cons a l ih =>
      simp only [List.map_cons, List.filterMap_cons, h a List.mem_cons_self,
        ih fun b hb => h b (List.mem_cons_of_mem _ hb)]
  unfold multiUnionMap
  rw [e]

theorem multiInterMap_congr {S δ : Type} {l : List (S × (Nat → Option δ) × List Nat)} {content : S → Nat → Option δ}
    {i : Nat} (h : ∀ a ∈ l, content a.1 i = a.2.1 i) :
    multiInterMap ((l.map (·.1)).map content) i = multiInterMap (l.map (·.2.1)) i := by
  have e : ((l.map (·.1)).map content).map (fun M => M i) = (l.map (·.2.1)).map (fun M => M i) := by
    induction l with
    | nil => rfl
    | cons a l ih =>
      simp only [List.map_cons, h a List.mem_cons_self, ih fun b hb => h b (List.mem_cons_of_mem _ hb)]
  have e1 : ∀ Ms : List (Nat → Option δ), multiInterMap Ms i =
      if (Ms.map (fun M => M i)).all Option.isSome then some ((Ms.map (fun M => M i)).filterMap id) else none := by
    intro Ms
    unfold multiInterMap
    rw [List.all_map, List.filterMap_map]
    rfl
  rw [e1, e1, e]

/-- The programs of an expression only load, and in every memory that contains the blocks of the trees that it borrows
they are a lawful tree. -/
theorem expr_tree {W : World α β} {A : Meaning α β} {O : Nat → Bytes.Mem} (J : Inv W A O) (A0 : Bytes.Allocator)
    {c x : Bool} {S C δ : Type} {P : PImpl S C δ} {s : S} {M : Nat → Option δ} {us : List Nat}
    (h : Expr W A c x P s M us) : (∀ u ∈ us, ∃ H, A.vars u = .holds H) ∧ LoadsAll P ∧
      ∀ z : Bytes.Mem, (∀ u ∈ us, ∀ y b, O u y = some b → z y = some b) →
        IsTree (relax x (P.at ⟨z, 0, A0⟩)) s M ∧ (c = true → IsTreeC (relax x (P.at ⟨z, 0, A0⟩)) s M) := by
  induction h with
  | @var i t g D M hv ha hg =>
    refine ⟨fun u hu => ?_, dense_loads α D, fun z hz => ?_⟩
    · simp only [List.mem_singleton] at hu
      exact ⟨_, hu ▸ ha⟩
    · have ag : Agree (denseImpl α D) (Bytes.impl α D) t (t.inMem ⟨O i, 0, A0⟩) z :=
        Agree.mono (dense_agree α D t ⟨O i, 0, A0⟩) (hz i (List.mem_singleton.mpr rfl))
      suffices hC : IsTreeC (relax (decide (g = .full)) (Bytes.impl α D)) (t.inMem ⟨O i, 0, A0⟩) M by
        have := isTreeC_at (h0 := ⟨z, 0, A0⟩) ag hC
        exact ⟨this.isTree, fun _ => this⟩
      have hok := J.ok i
      rw [hv, ha] at hok
      cases hok with
      | holds hT =>
        obtain ⟨ρ, ct, T, U⟩ := hT
        obtain ⟨hc, hx, -⟩ := graded_reads U
        by_cases e : g = .full
        · rw [decide_eq_true e, relax_true]
          exact isTreeC_bytes (T 0 A0) (hc e)
        · rw [decide_eq_false e]
          obtain ⟨TS, K, L, e⟩ := hx hg
          exact ⟨TS, _, Bytes.lawfulC_sim (e := false) (T 0 A0) L, e⟩
  | @priv S C δ I s M hI =>
    refine ⟨fun u hu => (nomatch hu), priv_loads I, fun z _ => ?_⟩
    have := isTreeC_at (x := true) (h0 := ⟨z, 0, A0⟩) (priv_agree I s z) (by rw [relax_true]; exact hI)
    exact ⟨this.isTree, fun _ => this⟩
  | @map c x S C δ ε P s M us f _ ih =>
    obtain ⟨hl, ld, ih⟩ := ih
    refine ⟨hl, map_loads f ld, fun z hz => ?_⟩
    obtain ⟨t1, t2⟩ := ih z hz
    have ag := map_agree f (ld.agree ⟨z, 0, A0⟩ s)
    exact ⟨isTree_at ag (map_isTree (I0 := relax x (P.at ⟨z, 0, A0⟩)) f t1),
      fun hc => isTreeC_at ag (map_isTreeC (I0 := relax x (P.at ⟨z, 0, A0⟩)) f (t2 hc))⟩
  | @union x0 x1 S0 C0 δ0 S1 C1 δ1 P0 P1 a b M0 M1 us0 us1 hN hD _ _ ih0 ih1 =>
    obtain ⟨hl0, ld0, ih0⟩ := ih0
    obtain ⟨hl1, ld1, ih1⟩ := ih1
    refine ⟨fun u hu => (List.mem_append.mp hu).elim (hl0 u) (hl1 u), union_loads ld0 ld1, fun z hz => ?_⟩
    obtain ⟨-, t0⟩ := ih0 z fun u hu => hz u (List.mem_append_left _ hu)
    obtain ⟨-, t1⟩ := ih1 z fun u hu => hz u (List.mem_append_right _ hu)
    have hC := union_isTree (I0 := relax x0 (P0.at ⟨z, 0, A0⟩)) (I1 := relax x1 (P1.at ⟨z, 0, A0⟩)) hN hD (t0 rfl) (t1 rfl)
    have e : unionImpl (relax x0 (P0.at ⟨z, 0, A0⟩)) (relax x1 (P1.at ⟨z, 0, A0⟩)) =
        relax (x0 && x1) (unionImpl (P0.at ⟨z, 0, A0⟩) (P1.at ⟨z, 0, A0⟩)) := by
      unfold relax unionImpl
      simp only
      congr 1
      cases (P0.at ⟨z, 0, A0⟩).exact <;> cases (P1.at ⟨z, 0, A0⟩).exact <;> cases x0 <;> cases x1 <;> rfl
    rw [e] at hC
    have := isTreeC_at (union_agree (ld0.agree ⟨z, 0, A0⟩ a) (ld1.agree ⟨z, 0, A0⟩ b)) hC
    exact ⟨this.isTree, fun _ => this⟩
  | @inter c x0 x1 S0 C0 δ0 S1 C1 δ1 P0 P1 a b M0 M1 us0 us1 hN hD _ _ ih0 ih1 =>
    obtain ⟨hl0, ld0, ih0⟩ := ih0
    obtain ⟨hl1, ld1, ih1⟩ := ih1
    refine ⟨fun u hu => (List.mem_append.mp hu).elim (hl0 u) (hl1 u), inter_loads ld0 ld1, fun z hz => ?_⟩
    obtain ⟨t0, t0'⟩ := ih0 z fun u hu => hz u (List.mem_append_left _ hu)
    obtain ⟨t1, t1'⟩ := ih1 z fun u hu => hz u (List.mem_append_right _ hu)
    have ag := inter_agree (ld0.agree ⟨z, 0, A0⟩ a) (ld1.agree ⟨z, 0, A0⟩ b)
    refine ⟨isTree_at ag ?_, fun hc => isTreeC_at ag ?_⟩
    · exact inter_isTree (I0 := relax x0 (P0.at ⟨z, 0, A0⟩)) (I1 := relax x1 (P1.at ⟨z, 0, A0⟩)) hN hD t0 t1
    · exact inter_isTreeC (I0 := relax x0 (P0.at ⟨z, 0, A0⟩)) (I1 := relax x1 (P1.at ⟨z, 0, A0⟩)) hN hD (t0' hc) (t1' hc)
  | @multiUnion x S C δ P l hD hne hcap _ ih =>
    obtain ⟨s0, hs0⟩ := List.exists_mem_of_ne_nil l hne
    have ld : LoadsAll P := (ih s0 hs0).2.1
    refine ⟨fun u hu => ?_, multiUnion_loads ld, fun z hz => ?_⟩
    · obtain ⟨s, hs, hu⟩ := List.mem_flatMap.mp hu
      exact (ih s hs).1 u hu
    · have hs : ∀ a ∈ l, IsTreeC (relax x (P.at ⟨z, 0, A0⟩)) a.1 a.2.1 := fun a ha =>
        ((ih a ha).2.2 z fun u hu => hz u (List.mem_flatMap.mpr ⟨a, ha, hu⟩)).2 rfl
      have hcfg : ValidCfg (relax x (P.at ⟨z, 0, A0⟩)).N (relax x (P.at ⟨z, 0, A0⟩)).D := by
        obtain ⟨T, K, L, -⟩ := hs s0 hs0
        exact L.cfg
      obtain ⟨content, hc, heq⟩ := contents fun a ha => (hs a ha).isTree
      have hT := multiUnion_isTree (I := relax x (P.at ⟨z, 0, A0⟩)) (ss := l.map (·.1)) (content := content) hcfg hD
        (by rw [List.length_map]; exact hcap) fun s h => by
          obtain ⟨a, ha, e1, e2⟩ := hc s h
          rw [← e1, ← show a.2.1 = content a.1 from e1 ▸ e2]
          exact hs a ha
      have hT := isTree_congr hT fun i hi => multiUnionMap_congr (heq i hi)
      have ag := multiUnion_agree (P := relaxP x P) (fun s => (relaxP_loads (x := x) ld).agree ⟨z, 0, A0⟩ s) rfl rfl rfl
        (l.map (·.1))
      have := isTree_at (x := true) ag (by rw [relax_true]; exact hT)
      rw [relax_true] at this
      exact ⟨this, fun e => (by cases e)⟩
  | @multiInter c x S C δ P l hne hcap _ ih =>
    obtain ⟨s0, hs0⟩ := List.exists_mem_of_ne_nil l hne
    have ld : LoadsAll P := (ih s0 hs0).2.1
    refine ⟨fun u hu => ?_, multiInter_loads ld, fun z hz => ?_⟩
    · obtain ⟨s, hs, hu⟩ := List.mem_flatMap.mp hu
      exact (ih s hs).1 u hu
    · have hs : ∀ a ∈ l, IsTree (relax x (P.at ⟨z, 0, A0⟩)) a.1 a.2.1 := fun a ha =>
        ((ih a ha).2.2 z fun u hu => hz u (List.mem_flatMap.mpr ⟨a, ha, hu⟩)).1
      obtain ⟨content, hc, heq⟩ := contents hs
      have hC := multiInter_isTree (I := relax x (P.at ⟨z, 0, A0⟩)) (ss := l.map (·.1)) (content := content)
        (by simpa using hne) (by rw [List.length_map]; exact hcap) fun s h => by
          obtain ⟨a, ha, e1, e2⟩ := hc s h
          rw [← e1, ← show a.2.1 = content a.1 from e1 ▸ e2]
          exact hs a ha
      have hC := isTreeC_congr hC fun i hi => multiInterMap_congr (heq i hi)
      have ag := multiInter_agree (P := relaxP x P) (fun s => (relaxP_loads (x := x) ld).agree ⟨z, 0, A0⟩ s) rfl rfl
        (l.map (·.1))
      have := isTreeC_at (x := true) ag (by rw [relax_true]; exact hC)
      exact ⟨this.isTree, fun _ => this⟩

/-- A reader has no blocks of its own. -/
theorem both_empty {z m : Bytes.Mem} (hm : ∀ x, m x = none) : both z m = z := by
  funext x
  by_cases h : dom z x = true
  · exact both_in h
  · rw [both_out h, hm, dom_not h]

theorem without_self (z : Bytes.Mem) (x : Nat) : without z z x = none := by
  by_cases h : dom z x = true
  · exact without_in h
  · rw [without_out h, dom_not h]

theorem finds_safe {γ : Type} {p : Prog γ} {z m : Bytes.Mem} {v : γ} {g : γ → β} (hp : Finds p z (.ok v))
    (hm : ∀ x, m x = none) (A0 : Bytes.Allocator) :
    SafeF (dom z) (p >>= fun r => Prog.ret (⟨none, none, [], some (g r)⟩ : Result α β)) (both z m)
      (fun r m' => r.found = some (g v) ∧ Ends none r.tree (without z m')) := by
  unfold SafeF
  rw [both_empty hm]
  refine safe_of_alone _ _ (fun c A => ?_) ⟨A0⟩
  refine ⟨⟨none, none, [], some (g v)⟩, ⟨z, c, A⟩, ?_, rfl, fun H e => (by cases e), fun _ => ⟨rfl, without_self z⟩⟩
  rw [guard_bind, alone_bind, hp v rfl ⟨z, c, A⟩ (fun _ _ h => h) _]
  rfl

theorem matTask_safe {S' S C : Type} {P : PImpl S' C α} {I : Impl S C α} {s' : S'} {s : S} {x : Bool} {g : Grade}
    {M : Nat → Option α} {z m : Bytes.Mem} (ag : Agree P I s' s z) (hT : IsTree (relax x I) s M) (hk : Makes P M x g)
    (hN : P.N = 1) (h9 : P.D ≤ 9) (hc : card (64 ^ P.D) M < 2 ^ 32) (hm : ∀ x, m x = none) (hz : Bytes.Finite z)
    (A0 : Bytes.Allocator) :
    SafeF (dom z) (matTask β P s') (both z m) (fun r m' => (r.value = none ∧ r.dropped = []) ∧
      Ends (some ⟨g, P.D, restrict (64 ^ P.D) M⟩) r.tree (without z m')) := by
  have hsrc : Source I s M g := by
    cases hk with
    | exact he => rw [relax_true] at hT; exact .exact hT (ag.exact.symm.trans he)
    | loose he =>
      refine .loose ?_ (ag.exact.symm.trans he)
      have : relax false I = { I with exact := false } := by unfold relax; rw [Bool.and_false]
      rwa [this] at hT
    | inexact he hne =>
      have he := ag.exact.symm.trans he
      have : relax x I = I := by
        unfold relax
        cases I
        simp only at he
        subst he
        rfl
      rw [this] at hT
      rw [ag.D] at hne
      exact .inexact hT he hne
  rw [ag.D] at h9 hc ⊢
  rw [ag.N] at hN
  obtain ⟨ct, e, U⟩ := source_rep hsrc hN h9 hc
  unfold SafeF
  rw [both_empty hm]
  refine safe_of_alone _ _ (fun c A => ?_) ⟨A0⟩
  obtain ⟨bt, e', ρ, T⟩ := Bytes.materialize_sim I s (bh := ⟨z, c, A⟩) hz ct e
  obtain ⟨al, -⟩ := materialize_ref ag ⟨z, c, A⟩ ⟨fun _ _ h => h, hz⟩ bt e'
  refine ⟨⟨some (ofBT bt), none, [], none⟩, bt.heap, ?_, ⟨rfl, rfl⟩, fun H e => ?_, fun e => (by cases e)⟩
  · unfold matTask
    rw [guard_bind, alone_bind, al]
    rfl
  · cases e
    refine ⟨_, rfl, ρ, ct, fun c' A' => ⟨?_, T.root, T.data, T.keys⟩, U⟩
    -- the blocks of the new tree are all that is not borrowed
    have hF : bt.heap.block = bt.heap.block := rfl
    refine ⟨T.heap.dom, fun a n hn => ?_, T.heap.inj, fun y hy => ?_, ?_⟩
    · obtain ⟨a', b, e1, e2, e3, e4⟩ := T.heap.live a n hn
      refine ⟨a', b, e1, ?_, rfl, e4⟩
      show without z bt.heap.block a' = _
      rw [without_out (by unfold dom; rw [show z a' = none from e3]; simp)]
      exact e2
    · show without z bt.heap.block y = none
      have := T.heap.frame y hy
      by_cases h : dom z y = true
      · exact without_in h
      · rw [without_out h, this]; exact dom_not h
    · obtain ⟨B, hB⟩ := T.heap.fin
      refine ⟨B, fun y hy => ?_⟩
      show without z bt.heap.block y = none
      by_cases h : dom z y = true
      · exact without_in h
      · rw [without_out h]; exact hB y hy

/-- Variable `i` changes, its blocks stay. -/
theorem Inv.change {W : World α β} {A : Meaning α β} {O : Nat → Bytes.Mem} (J : Inv W A O) {i : Nat} {v : Var α β}
    {T : Task α β} (hl : A.NotLent i) (h : VarOk (lent O) v T (O i))
    (ht : ∀ Q next us, T = .doing Q next us → ∀ u ∈ us, u ≠ i ∧ ∃ H, A.vars u = .holds H) :
    Inv ⟨W.mem, upd W.vars i v⟩ ⟨upd A.vars i T, A.own⟩ O := by
  refine ⟨J.within, J.disj, J.env, J.rest, J.fin, fun j => ?_, fun j Q next us hj u hu => ?_⟩
  · by_cases e : j = i
    · subst e; simp only [upd_same]; exact h
    · simp only [upd_other _ _ e]; exact J.ok j
  · by_cases e : j = i
    · subst e
      simp only [upd_same] at hj
      obtain ⟨h1, h2⟩ := ht Q next us hj u hu
      simp only [upd_other _ _ h1]; exact h2
    · simp only [upd_other _ _ e] at hj
      have : u ≠ i := by rintro rfl; exact hl j Q next us hj hu
      simp only [upd_other _ _ this]
      exact J.lends j Q next us hj u hu

/-- A variable that holds no tree has not been borrowed. -/
theorem Inv.notLent {W : World α β} {A : Meaning α β} {O : Nat → Bytes.Mem} (J : Inv W A O) {i : Nat}
    (h : ∀ H, A.vars i ≠ .holds H) : A.NotLent i := by
  intro j Q next us hj hu
  obtain ⟨H, e⟩ := J.lends j Q next us hj i hu
  exact h H e

/-- Variable `i` makes an access to its own blocks. -/
theorem Inv.moves {W : World α β} {A : Meaning α β} {O : Nat → Bytes.Mem} (J : Inv W A O) {i : Nat} {v : Var α β}
    {m' : Bytes.Mem} {mem' : Bytes.BHeap} (hl : A.NotLent i) (V : Moves (O i) m' W.mem mem')
    (h : VarOk (lent O) v (A.vars i) m') : Inv ⟨mem', upd W.vars i v⟩ A (upd O i m') := by
  -- a block of another variable
  have other : ∀ j x, j ≠ i → O j x ≠ none → O i x = none ∧ m' x = none := by
    intro j x hj hx
    have h1 : O i x = none := by
      cases e : O i x with
      | none => rfl
      | some b => exact absurd (J.disj j i x hx (by rw [e]; simp)) hj
    refine ⟨h1, ?_⟩
    cases e : m' x with
    | none => rfl
    | some b =>
      have := V.new x h1 (by rw [e]; simp)
      cases e2 : O j x with
      | none => exact absurd e2 hx
      | some b2 => rw [J.within j x b2 e2] at this; cases this
  -- borrowed blocks stay
  have hlent : ∀ j Q next us, A.vars j = .doing Q next us → lent (upd O i m') us = lent O us := by
    intro j Q next us hj
    refine lent_congr fun u hu => upd_other _ _ ?_
    rintro rfl
    exact hl j Q next us hj hu
  have hok : ∀ {j : Nat} {w : Var α β} {m : Bytes.Mem}, VarOk (lent O) w (A.vars j) m →
      VarOk (lent (upd O i m')) w (A.vars j) m := by
    intro j w m hw
    generalize hT : A.vars j = T at hw
    cases hw with
    | gone hm => exact .gone hm
    | holds ht => exact .holds ht
    | doing hs =>
      refine .doing ?_
      rw [hlent j _ _ _ hT]
      exact hs
  refine ⟨fun j => ?_, fun j k x hj hk => ?_, fun j x hx => ?_, fun x hx => ?_, V.fin, fun j => ?_, J.lends⟩
  · by_cases e : j = i
    · subst e; simp only [upd_same]; exact V.within
    · simp only [upd_other _ _ e]
      intro x b hb
      obtain ⟨o1, o2⟩ := other j x e (by rw [hb]; simp)
      show mem'.block x = _
      rw [V.keep x o1 o2]
      exact J.within j x b hb
  · by_cases e1 : j = i
    · by_cases e2 : k = i
      · rw [e1, e2]
      · simp only [e1, upd_same] at hj
        rw [upd_other _ _ e2] at hk
        exact absurd (other k x e2 hk).2 hj
    · by_cases e2 : k = i
      · simp only [e2, upd_same] at hk
        rw [upd_other _ _ e1] at hj
        exact absurd (other j x e1 hj).2 hk
      · rw [upd_other _ _ e1] at hj
        rw [upd_other _ _ e2] at hk
        exact J.disj j k x hj hk
  · by_cases e : j = i
    · simp only [e, upd_same] at hx
      cases h1 : O i x with
      | some b => exact J.env i x (by rw [h1]; simp)
      | none =>
        have h2 := V.new x h1 hx
        by_cases h3 : ∀ j, O j x = none
        · rw [← J.rest x h3]; exact h2
        · obtain ⟨j, hj⟩ := Classical.not_forall.mp h3
          exact J.env j x hj
    · rw [upd_other _ _ e] at hx
      exact J.env j x hx
  · have h1 : m' x = none := by have := hx i; simpa only [upd_same] using this
    have h2 : ∀ j, j ≠ i → O j x = none := fun j hj => by have := hx j; rwa [upd_other _ _ hj] at this
    show mem'.block x = _
    cases h3 : O i x with
    | some b =>
      rw [V.gone x (by rw [h3]; simp) h1, J.env i x (by rw [h3]; simp)]
    | none =>
      rw [V.keep x h3 h1]
      refine J.rest x fun j => ?_
      by_cases e : j = i
      · rw [e]; exact h3
      · exact h2 j e
  · by_cases e : j = i
    · subst e; simp only [upd_same]; exact hok h
    · simp only [upd_other _ _ e]; exact hok (J.ok j)

/-- An access that spares the borrowed blocks `z` moves the own ones. -/
theorem moves_own {a : Act} {m m' z : Bytes.Mem} {h h' : Bytes.BHeap} {r : a.Ans} (hs : a.spares (dom z) = true)
    (ho : a.Own (both z m) r m') (V : Moves (both z m) m' h h') (hz : Within z h)
    (hd : ∀ x, m x ≠ none → z x = none) :
    Moves m (without z m') h h' ∧ both z (without z m') = m' := by
  have hstay : ∀ x, dom z x = true → m' x = z x := by
    intro x hx
    rw [own_spares hs ho (fun y hy => ?_) hx, both_in hx]
    rw [both_in hy]
    obtain ⟨b, e⟩ := dom_some hy
    rw [e]; simp
  have hnd : ∀ x, m x ≠ none → ¬ dom z x = true := fun x hx => by
    unfold dom; rw [hd x hx]; simp
  refine ⟨⟨fun x b hx => ?_, fun x h1 h2 => ?_, fun x h1 h2 => ?_, fun x h1 h2 => ?_, V.fin⟩, ?_⟩
  · by_cases e : dom z x = true
    · rw [without_in e] at hx; cases hx
    · rw [without_out e] at hx; exact V.within x b hx
  · by_cases e : dom z x = true
    · obtain ⟨b, hb⟩ := dom_some e
      rw [V.within x b ((hstay x e).trans hb), hz x b hb]
    · rw [without_out e] at h2
      exact V.keep x ((both_out e).trans h1) h2
  · by_cases e : dom z x = true
    · rw [without_in e] at h2; exact absurd rfl h2
    · rw [without_out e] at h2
      exact V.new x ((both_out e).trans h1) h2
  · have e := hnd x h1
    rw [without_out e] at h2
    exact V.gone x (by rw [both_out e]; exact h1) h2
  · funext x
    by_cases e : dom z x = true
    · rw [both_in e, hstay x e]
    · rw [both_out e, without_out e]

/-- Other code changes its own blocks. -/
theorem Inv.other {W : World α β} {A : Meaning α β} {O : Nat → Bytes.Mem} (J : Inv W A O) {mem' : Bytes.BHeap}
    {own' : Bytes.Mem} (hk : ∀ i x, O i x ≠ none → mem'.block x = W.mem.block x ∧ own' x = none)
    (hr : ∀ x, (∀ i, O i x = none) → mem'.block x = own' x) (hf : Bytes.Finite mem'.block) :
    Inv ⟨mem', W.vars⟩ ⟨A.vars, own'⟩ O :=
  ⟨fun i x b hb => by
    show mem'.block x = _
    rw [(hk i x (by rw [hb]; simp)).1]; exact J.within i x b hb,
   J.disj, fun i x hx => (hk i x hx).2, hr, hf, J.ok, J.lends⟩

/-- The blocks that a running task sees are in memory. -/
theorem Inv.sees {W : World α β} {A : Meaning α β} {O : Nat → Bytes.Mem} (J : Inv W A O) (i : Nat) (us : List Nat) :
    Within (both (lent O us) (O i)) W.mem := by
  intro x b hx
  by_cases e : dom (lent O us) x = true
  · rw [both_in e] at hx; exact lent_within J us x b hx
  · rw [both_out e] at hx; exact J.within i x b hx

/-- A task does not borrow its own blocks. -/
theorem Inv.apart {W : World α β} {A : Meaning α β} {O : Nat → Bytes.Mem} (J : Inv W A O) {i : Nat}
    {Q : Option α → List α → Option β → Prop} {next : Option (Held α)} {us : List Nat}
    (hT : A.vars i = .doing Q next us) {x : Nat} (hx : O i x ≠ none) : lent O us x = none := by
  cases e : lent O us x with
  | none => rfl
  | some b =>
    obtain ⟨u, hu, e'⟩ := lent_some e
    have := J.disj i u x hx (by rw [e']; simp)
    subst this
    obtain ⟨H, eH⟩ := J.lends i Q next us hT i hu
    rw [hT] at eH; cases eH

/-- An operation comes to its end: what it leaves are its own blocks. -/
theorem Inv.ends {W : World α β} {A : Meaning α β} {O : Nat → Bytes.Mem} (J : Inv W A O) {i : Nat}
    {Q : Option α → List α → Option β → Prop} {next : Option (Held α)} {us : List Nat} {r : Result α β}
    (hv : W.vars i = .busy (.ret r)) (hT : A.vars i = .doing Q next us) :
    Q r.value r.dropped r.found ∧ Ends next r.tree (O i) := by
  have hok := J.ok i
  rw [hv, hT] at hok
  cases hok with
  | doing hs =>
    have e : without (lent O us) (both (lent O us) (O i)) = O i := by
      funext x
      by_cases e : dom (lent O us) x = true
      · rw [without_in e]
        cases e2 : O i x with
        | none => rfl
        | some b =>
          have := J.apart hT (x := x) (by rw [e2]; simp)
          unfold dom at e
          rw [this] at e; cases e
      · rw [without_out e, both_out e]
    have hs : Q r.value r.dropped r.found ∧ Ends next r.tree (without (lent O us) (both (lent O us) (O i))) := hs
    rw [e] at hs
    exact hs

/-- An expression does not borrow a variable that holds no tree. -/
theorem borrowed {A : Meaning α β} {us : List Nat} {i : Nat} (hg : A.vars i = .gone)
    (hl : ∀ u ∈ us, ∃ H, A.vars u = .holds H) {T : Task α β}
    {Q : Option α → List α → Option β → Prop} {next : Option (Held α)} (e : T = .doing Q next us) :
    ∀ Q' next' us', T = .doing Q' next' us' → ∀ u ∈ us', u ≠ i ∧ ∃ H, A.vars u = .holds H := by
  intro Q' next' us' e' u hu
  rw [e] at e'
  cases e'
  refine ⟨?_, hl u hu⟩
  rintro rfl
  obtain ⟨H, eH⟩ := hl u hu
  rw [hg] at eH; cases eH

theorem unborrowed {A : Meaning α β} {i : Nat} {T : Task α β}
    {Q : Option α → List α → Option β → Prop} {next : Option (Held α)} (e : T = .doing Q next []) :
    ∀ Q' next' us', T = .doing Q' next' us' → ∀ u ∈ us', u ≠ i ∧ ∃ H, A.vars u = .holds H := by
  intro Q' next' us' e' u hu
  rw [e] at e'
  cases e'
  exact nomatch hu

theorem after_not {o : Option (Held α)} {Q : Option α → List α → Option β → Prop} {next : Option (Held α)}
    {us : List Nat} (e : (Task.after o : Task α β) = .doing Q next us) : False := by
  cases o <;> cases e

theorem run_inv {W : World α β} {A : Meaning α β} (h : Run W A) : ∃ O, Inv W A O := by
  induction h with
  | start hf =>
    exact ⟨fun _ _ => none, fun _ _ _ h => (by cases h), fun _ _ _ h => absurd rfl h, fun _ _ h => absurd rfl h,
      fun _ _ => rfl, hf, fun _ => .gone fun _ => rfl, fun _ _ _ _ h => (by cases h)⟩
  | @new W A i D _ hv ht h1 h9 ih =>
    obtain ⟨O, J⟩ := ih
    have hok := J.ok i
    rw [hv, ht] at hok
    cases hok with
    | gone hm =>
      exact ⟨O, J.change (J.notLent fun H e => by rw [ht] at e; cases e)
        (.doing (alone_safe (newTask_safe h1 h9 hm W.mem.allocator))) (unborrowed rfl)⟩
  | @op W A i t g g' D M o _ hv ht hl ho ha ih =>
    obtain ⟨O, J⟩ := ih
    have hok := J.ok i
    rw [hv, ht] at hok
    cases hok with
    | holds hT =>
      exact ⟨O, J.change hl (.doing (alone_safe (opTask_safe hT ho ha W.mem.allocator))) (unborrowed rfl)⟩
  | @panics W A i t g D M k _ hv ht hl hg hk ih =>
    obtain ⟨O, J⟩ := ih
    have hok := J.ok i
    rw [hv, ht] at hok
    cases hok with
    | holds hT =>
      exact ⟨O, J.change hl (.doing (alone_safe (panicTask_safe hT hg hk W.mem.allocator))) (unborrowed rfl)⟩
  | @drop W A i t H _ hv ht hl ih =>
    obtain ⟨O, J⟩ := ih
    have hok := J.ok i
    rw [hv, ht] at hok
    cases hok with
    | holds hT =>
      exact ⟨O, J.change hl (.doing (alone_safe (dropTask_safe hT W.mem.allocator))) (unborrowed rfl)⟩
  | @get W A i c x k us S C δ P s M f _ hv ht he hk hk' ih =>
    obtain ⟨O, J⟩ := ih
    have hok := J.ok i
    rw [hv, ht] at hok
    cases hok with
    | gone hm =>
      obtain ⟨hl, ld, hI⟩ := expr_tree J W.mem.allocator he
      obtain ⟨hI, -⟩ := hI (lent O us) fun u hu y b h => lent_of J hu h
      have ag := ld.agree ⟨lent O us, 0, W.mem.allocator⟩ s
      have hg : (P.at ⟨lent O us, 0, W.mem.allocator⟩).get s k = .ok (M k) := by
        have := tree_get hI k
        rw [show (relax x (P.at ⟨lent O us, 0, W.mem.allocator⟩)).N = P.N from rfl,
          show (relax x (P.at ⟨lent O us, 0, W.mem.allocator⟩)).D = P.D from rfl, if_pos (by omega)] at this
        exact this
      have hf := ag.get k
      rw [hg] at hf
      exact ⟨O, J.change (J.notLent fun H e => by rw [ht] at e; cases e)
        (.doing (finds_safe hf hm W.mem.allocator)) (borrowed ht hl rfl)⟩
  | @iter W A i c x n fuel us S C δ P s M f _ hv ht he hw ih =>
    obtain ⟨O, J⟩ := ih
    have hok := J.ok i
    rw [hv, ht] at hok
    cases hok with
    | gone hm =>
      obtain ⟨hl, ld, hI⟩ := expr_tree J W.mem.allocator he
      obtain ⟨hI, -⟩ := hI (lent O us) fun u hu y b h => lent_of J hu h
      have ag := ld.agree ⟨lent O us, 0, W.mem.allocator⟩ s
      have hg : (P.at ⟨lent O us, 0, W.mem.allocator⟩).iterRun s fuel n =
          .ok ((List.range n).map (fun k => (listing (width P.N ^ P.D) M)[k]?)) := by
        rw [← iterRun_relax x]
        exact iterRun_bound hI hw n
      have hf := ag.iterRun fuel n
      rw [hg] at hf
      exact ⟨O, J.change (J.notLent fun H e => by rw [ht] at e; cases e)
        (.doing (finds_safe hf hm W.mem.allocator)) (borrowed ht hl rfl)⟩
  | @mat W A i c x g us S C P s M _ hv ht he hk hN h9 hc ih =>
    obtain ⟨O, J⟩ := ih
    have hok := J.ok i
    rw [hv, ht] at hok
    cases hok with
    | gone hm =>
      obtain ⟨hl, ld, hI⟩ := expr_tree J W.mem.allocator he
      obtain ⟨hI, -⟩ := hI (lent O us) fun u hu y b h => lent_of J hu h
      have ag := ld.agree ⟨lent O us, 0, W.mem.allocator⟩ s
      exact ⟨O, J.change (J.notLent fun H e => by rw [ht] at e; cases e)
        (.doing (matTask_safe ag hI hk hN h9 hc hm (finite_within (lent_within J us) J.fin) W.mem.allocator))
        (borrowed ht hl rfl)⟩
  | @access W A i a k r mem' _ hv he ih =>
    obtain ⟨O, J⟩ := ih
    have hok := J.ok i
    rw [hv] at hok
    generalize hT : A.vars i = T at hok
    cases hok with
    | @doing p Q next us m hs =>
      obtain ⟨hc, hsp, hnext⟩ := SafeF.act hs
      obtain ⟨r', h', m', e, ow, V⟩ := exec_own (J.sees i us) J.fin hc
      rw [he] at e
      cases e
      obtain ⟨V', eb⟩ := moves_own hsp ow V (lent_within J us) fun x hx => J.apart hT hx
      refine ⟨_, J.moves (J.notLent fun H e => by rw [hT] at e; cases e) V' ?_⟩
      rw [hT]
      refine .doing ?_
      rw [eb]
      exact hnext _ _ ow
  | @finish W A i r Q next us _ hv ht ih =>
    obtain ⟨O, J⟩ := ih
    refine ⟨O, J.change (J.notLent fun H e => by rw [ht] at e; cases e) ?_ fun _ _ _ e => (after_not e).elim⟩
    obtain ⟨-, hE1, hE2⟩ := J.ends hv ht
    cases next with
    | none =>
      obtain ⟨e, hm⟩ := hE2 rfl
      rw [e]
      exact .gone hm
    | some H =>
      obtain ⟨t', e, hT⟩ := hE1 H rfl
      rw [e]
      exact .holds hT
  | @alloc W A b _ ih =>
    obtain ⟨O, J⟩ := ih
    have hfree : W.mem.block (W.mem.alloc b).2 = none := W.mem.allocator.free _ _ _ J.fin
    generalize hx0 : (W.mem.alloc b).2 = x0 at hfree
    have hblk : (W.mem.alloc b).1.block = upd W.mem.block x0 (some b) := by rw [← hx0]; rfl
    have hne : ∀ i x, O i x ≠ none → x ≠ x0 := fun i x hx e => by
      subst e
      cases e2 : O i x with
      | none => exact hx e2
      | some b2 => rw [J.within i x b2 e2] at hfree; cases hfree
    refine ⟨O, J.other (fun i x hx => ?_) (fun x hx => ?_) ?_⟩
    · rw [hblk, upd_other _ _ (hne i x hx), upd_other _ _ (hne i x hx)]
      exact ⟨rfl, J.env i x hx⟩
    · rw [hblk]
      by_cases e : x = x0
      · subst e; rw [Threads.upd_same, Threads.upd_same]
      · rw [upd_other _ _ e, upd_other _ _ e]; exact J.rest x hx
    · rw [hblk]; exact finite_upd J.fin _ _
  | @write W A x0 b0 b _ hy ih =>
    obtain ⟨O, J⟩ := ih
    have hne : ∀ i x, O i x ≠ none → x ≠ x0 := fun i x hx e => by
      subst e
      rw [J.env i x hx] at hy; cases hy
    refine ⟨O, J.other (fun i x hx => ?_) (fun x hx => ?_) ?_⟩
    · rw [put_block, upd_other _ _ (hne i x hx), upd_other _ _ (hne i x hx)]
      exact ⟨rfl, J.env i x hx⟩
    · rw [put_block]
      by_cases e : x = x0
      · subst e; rw [Threads.upd_same, Threads.upd_same]
      · rw [upd_other _ _ e, upd_other _ _ e]; exact J.rest x hx
    · rw [put_block]; exact finite_upd J.fin _ _
  | @free W A x0 b mem' _ hy e ih =>
    obtain ⟨O, J⟩ := ih
    have hne : ∀ i x, O i x ≠ none → x ≠ x0 := fun i x hx e => by
      subst e
      rw [J.env i x hx] at hy; cases hy
    have hn : ∀ i, O i x0 = none := fun i => by
      cases e : O i x0 with
      | none => rfl
      | some b => exact absurd rfl (hne i x0 (by rw [e]; simp))
    have hmem : mem'.block = upd W.mem.block x0 none := by
      unfold Bytes.BHeap.dealloc at e
      rw [J.rest x0 hn, hy] at e
      simp only [unwrapU, bind_ok, if_true] at e
      cases e
      rfl
    refine ⟨O, J.other (fun i x hx => ?_) (fun x hx => ?_) ?_⟩
    · rw [hmem, upd_other _ _ (hne i x hx), upd_other _ _ (hne i x hx)]
      exact ⟨rfl, J.env i x hx⟩
    · rw [hmem]
      by_cases e : x = x0
      · subst e; rw [Threads.upd_same, Threads.upd_same]
      · rw [upd_other _ _ e, upd_other _ _ e]; exact J.rest x hx
    · rw [hmem]; exact finite_upd J.fin _ _


/-! ## The property -/

/-- **C86**, memory safety: in every reachable state, whatever the schedule, no thread has failed, and the next
access of every thread succeeds: it is inside a live block, aligned, and frees with the right size. -/
theorem C86_safe {W : World α β} {A : Meaning α β} (h : Run W A) {i : Nat} {p : Prog (Result α β)}
    (hi : W.vars i = .busy p) :
    (∀ e, p ≠ .err e) ∧ ∀ a k, p = .act a k → ∃ r mem', a.exec W.mem = .ok (r, mem') := by
  obtain ⟨O, J⟩ := run_inv h
  have hok := J.ok i
  rw [hi] at hok
  generalize A.vars i = T at hok
  cases hok with
  | doing hs =>
    refine ⟨fun e he => ?_, fun a k he => ?_⟩
    · subst he; exact hs
    · subst he
      obtain ⟨r', h', m', e, -⟩ := exec_own (J.sees i _) J.fin (SafeF.act hs).1
      exact ⟨r', h', e⟩

/-- **C86**, data races: two threads are never about to make accesses that race, no access touches a block of other
code, and nobody is about to write to a static. -/
theorem C86_race_free {W : World α β} {A : Meaning α β} (h : Run W A) {i : Nat} {a : Act}
    {k : a.Ans → Prog (Result α β)} (hi : W.vars i = .busy (.act a k)) :
    (∀ j b (k' : b.Ans → Prog (Result α β)), j ≠ i → W.vars j = .busy (.act b k') → ¬ Race a b) ∧
    (∀ x off, Touches a (.heap x) off → A.own x = none) ∧ ∀ n off, ¬ Writes a (.stat n) off := by
  obtain ⟨O, J⟩ := run_inv h
  have can : ∀ {j : Nat} {b : Act} {k' : b.Ans → Prog (Result α β)}, W.vars j = .busy (.act b k') →
      ∃ Q next us, A.vars j = .doing Q next us ∧ b.Can (both (lent O us) (O j)) ∧
        b.spares (dom (lent O us)) = true := by
    intro j b k' hj
    have hok := J.ok j
    rw [hj] at hok
    generalize A.vars j = T at hok
    cases hok with
    | @doing p Q next us m hs => exact ⟨Q, next, us, rfl, (SafeF.act hs).1, (SafeF.act hs).2.1⟩
  have sees : ∀ {m : Bytes.Mem} {b : Act}, b.Can m → ∀ {x off}, Touches b (.heap x) off → m x ≠ none := by
    intro m b hc x off ht
    cases b with
    | load p o s al =>
      obtain ⟨b, v, e, -⟩ := hc
      rcases ht with ht | ht
      · obtain ⟨rfl, -⟩ := ht
        rw [show m x = some b from e]; simp
      · exact ht.elim
    | store p o al v =>
      obtain ⟨y, b, b', rfl, e, -⟩ := hc
      rcases ht with ht | ht
      · exact ht.elim
      · obtain ⟨e1, -⟩ := ht
        cases e1; rw [e]; simp
    | move p sr ds si al =>
      obtain ⟨y, b, b', rfl, e, -⟩ := hc
      rcases ht with ht | ht
      · obtain ⟨e1, -⟩ := ht
        cases e1; rw [e]; simp
      · obtain ⟨e1, -⟩ := ht
        cases e1; rw [e]; simp
    | alloc s => rcases ht with ht | ht <;> exact ht.elim
    | free p s =>
      obtain ⟨y, b, rfl, e, -⟩ := hc
      rcases ht with ht | ht
      · exact ht.elim
      · cases ht; rw [e]; simp
    | realloc p s n =>
      obtain ⟨y, b, rfl, e, -⟩ := hc
      rcases ht with ht | ht
      · cases ht; rw [e]; simp
      · cases ht; rw [e]; simp
  have heap : ∀ {m : Bytes.Mem} {b : Act}, b.Can m → ∀ {p off}, Writes b p off → ∃ x, p = .heap x ∧ b.target = some x := by
    intro m b hc p off hw
    cases b with
    | load => exact hw.elim
    | alloc => exact hw.elim
    | store q o al v => obtain ⟨y, b, b', rfl, -⟩ := hc; exact ⟨y, hw.1, rfl⟩
    | move q sr ds si al => obtain ⟨y, b, b', rfl, -⟩ := hc; exact ⟨y, hw.1, rfl⟩
    | free q s => obtain ⟨y, b, rfl, -⟩ := hc; exact ⟨y, hw, rfl⟩
    | realloc q s n => obtain ⟨y, b, rfl, -⟩ := hc; exact ⟨y, hw, rfl⟩
  -- what a thread touches is its own, or a tree it has borrowed
  have mine : ∀ {j : Nat} {b : Act} {k' : b.Ans → Prog (Result α β)}, W.vars j = .busy (.act b k') →
      ∀ {x off}, Touches b (.heap x) off → ∃ u, O u x ≠ none ∧ (u = j ∨ ∃ H, A.vars u = .holds H) := by
    intro j b k' hj x off ht
    obtain ⟨Q, next, us, hT, hc, hs⟩ := can hj
    have := sees hc ht
    by_cases e : dom (lent O us) x = true
    · obtain ⟨b', e'⟩ := dom_some e
      obtain ⟨u, hu, e2⟩ := lent_some e'
      exact ⟨u, by rw [e2]; simp, .inr (J.lends j Q next us hT u hu)⟩
    · rw [both_out e] at this
      exact ⟨j, this, .inl rfl⟩
  -- what it writes is its own
  have writes : ∀ {j : Nat} {b : Act} {k' : b.Ans → Prog (Result α β)}, W.vars j = .busy (.act b k') →
      ∀ {p off}, Writes b p off → ∃ x, p = .heap x ∧ O j x ≠ none := by
    intro j b k' hj p off hw
    obtain ⟨Q, next, us, hT, hc, hs⟩ := can hj
    obtain ⟨x, rfl, ht⟩ := heap hc hw
    have := sees hc (.inr hw)
    unfold Act.spares at hs
    rw [ht] at hs
    have hd : ¬ dom (lent O us) x = true := by simpa using hs
    rw [both_out hd] at this
    exact ⟨x, rfl, this⟩
  have clash : ∀ {i j : Nat} {a b : Act} {k : a.Ans → Prog (Result α β)} {k' : b.Ans → Prog (Result α β)},
      W.vars i = .busy (.act a k) → W.vars j = .busy (.act b k') → j ≠ i → ∀ {p off}, Touches a p off →
      ¬ Writes b p off := by
    intro i j a b k k' hi hj hne p off ht hw
    obtain ⟨x, rfl, ho⟩ := writes hj hw
    obtain ⟨u, hu, hu'⟩ := mine hi ht
    have := J.disj u j x hu ho
    subst this
    rcases hu' with e | ⟨H, e⟩
    · exact hne e
    · obtain ⟨Q, next, us, hT, -⟩ := can hj
      rw [e] at hT; cases hT
  refine ⟨fun j b k' hj hb ⟨p, x, hr⟩ => ?_, fun x off ht => ?_, fun n off hw => ?_⟩
  · rcases hr with ⟨h1, h2⟩ | ⟨h1, h2⟩
    · exact clash hi hb hj h1 h2
    · exact clash hb hi (Ne.symm hj) h2 h1
  · obtain ⟨u, hu, -⟩ := mine hi ht
    exact J.env u x hu
  · obtain ⟨y, e, -⟩ := writes hi hw
    cases e

/-- **C86**, results: an operation that has come to its end returns, drops and finds what it returns, drops and finds
on the maps (the condition given when it began), and leaves a tree unless it was `drop` or a reader. -/
theorem C86_result {W : World α β} {A : Meaning α β} (h : Run W A) {i : Nat} {r : Result α β}
    (hi : W.vars i = .busy (.ret r)) : ∃ Q next us, A.vars i = .doing Q next us ∧ Q r.value r.dropped r.found ∧
      r.tree.isSome = next.isSome := by
  obtain ⟨O, J⟩ := run_inv h
  have hT : ∃ Q next us, A.vars i = .doing Q next us := by
    have hok := J.ok i
    rw [hi] at hok
    generalize A.vars i = T at hok
    cases hok with
    | @doing p Q next us m hs => exact ⟨Q, next, us, rfl⟩
  obtain ⟨Q, next, us, hT⟩ := hT
  obtain ⟨hq, hE1, hE2⟩ := J.ends hi hT
  refine ⟨Q, next, us, hT, hq, ?_⟩
  cases next with
  | none => rw [(hE2 rfl).1]; rfl
  | some H =>
    obtain ⟨t', e, -⟩ := hE1 H rfl
    rw [e]; rfl

/-- The blocks of a tree in the memory of the whole program. -/
theorem TreeIs.inWorld {t : Tree α} {H : Held α} {m : Bytes.Mem} {h : Bytes.BHeap} (hT : TreeIs t H m)
    (hw : Within m h) (hf : Bytes.Finite h.block) : ∃ ρ F, ∃ ct : DT α, Bytes.TRep ρ F ct (t.inMem h) ∧ Graded ct H := by
  obtain ⟨ρ, ct, T, U⟩ := hT
  have T := T h.calls h.allocator
  refine ⟨ρ, Bytes.outside (Bytes.Own ρ ct.heap) h.block, ct, ⟨?_, T.root, T.data, T.keys⟩, U⟩
  refine T.heap.keep (bh' := h) (fun x hx => ?_) hf
  obtain ⟨b, hb, -⟩ := T.heap.own_live hx
  have hb : m x = some b := hb
  show h.block x = m x
  rw [hb]
  exact hw x b hb

/-- **C86**, content: while other threads are in the middle of their operations, a tree nobody works on is its map: it
obeys the trait contract (apart from exactness unless it is `full`; a `damaged` tree: `get` in occupied blocks), and
`get` and iteration read its map. -/
theorem C86_content {W : World α β} {A : Meaning α β} (h : Run W A) {i D : Nat} {g : Grade} {M : Nat → Option α}
    (hi : A.vars i = .holds ⟨g, D, M⟩) : ∃ t, W.vars i = .idle t ∧
      (g = .full → IsTreeC (Bytes.impl α D) (t.inMem W.mem) M) ∧
      (g ≠ .damaged → IsTreeC (bytesInexact α D) (t.inMem W.mem) M) ∧
      (∀ k, k < 64 ^ D → Occupied M (k / 64) → (Bytes.impl α D).get (t.inMem W.mem) k = .ok (M k)) ∧
      ∃ F, ∀ fuel, F ≤ fuel → ∀ n, (Bytes.impl α D).iterRun (t.inMem W.mem) fuel n =
        .ok ((List.range n).map (fun k => (listing (64 ^ D) M)[k]?)) := by
  obtain ⟨O, J⟩ := run_inv h
  have hok := J.ok i
  rw [hi] at hok
  generalize hv : W.vars i = v at hok
  cases hok with
  | @holds t H m hT =>
    obtain ⟨ρ, F, ct, T, U⟩ := hT.inWorld (J.within i) J.fin
    obtain ⟨hc, hx, hg, Fu, hit⟩ := graded_reads U
    refine ⟨t, rfl, fun e => isTreeC_bytes T (hc e), fun hne => ?_, fun k hk hO => ?_, Fu, fun fuel hf n => ?_⟩
    · obtain ⟨TS, K, L, e⟩ := hx hne
      exact ⟨TS, _, Bytes.lawfulC_sim (e := false) T L, e⟩
    · exact (Bytes.get_sim D T k).eq (hg k hk hO)
    · exact (Bytes.iterRun_sim D T fuel n).eq (hit fuel hf n)

/-- **C86**, other code: its blocks hold what it wrote to them, whatever the threads do, and it can free them; and when
all trees have been dropped, nothing but its blocks is left: no operation leaked a block. -/
theorem C86_rest {W : World α β} {A : Meaning α β} (h : Run W A) :
    (∀ x b, A.own x = some b → W.mem.block x = some b ∧ ∃ mem', W.mem.dealloc x b.length = .ok mem') ∧
    ((∀ i, A.vars i = .gone) → W.mem.block = A.own) := by
  obtain ⟨O, J⟩ := run_inv h
  constructor
  · intro x b hx
    have hb : W.mem.block x = some b := by
      rw [J.rest x fun i => ?_, hx]
      cases e : O i x with
      | none => rfl
      | some b' => rw [J.env i x (by rw [e]; simp)] at hx; cases hx
    refine ⟨hb, ⟨fun y => if y = x then none else W.mem.block y, W.mem.calls, W.mem.allocator⟩, ?_⟩
    unfold Bytes.BHeap.dealloc
    rw [hb]
    simp only [unwrapU, bind_ok, if_true]
    rfl
  · intro hn
    refine funext fun x => J.rest x fun i => ?_
    have hok := J.ok i
    rw [hn i] at hok
    generalize W.vars i = v at hok
    cases hok with
    | gone hm => exact hm x

/-- **C86**, progress: in every reachable state, every operation that has begun can be completed by its thread alone,
whatever the others are in the middle of; they are not affected. -/
theorem C86_progress {W : World α β} {A : Meaning α β} (h : Run W A) {i : Nat} {p : Prog (Result α β)}
    (hi : W.vars i = .busy p) : ∃ Q next us, A.vars i = .doing Q next us ∧
      ∃ W', Run W' ⟨upd A.vars i (.after next), A.own⟩ ∧ ∀ j, j ≠ i → W'.vars j = W.vars j := by
  have hq : ∃ Q next us, A.vars i = .doing Q next us := by
    obtain ⟨O, J⟩ := run_inv h
    have hok := J.ok i
    rw [hi] at hok
    generalize A.vars i = T at hok
    cases hok with
    | @doing p Q next us m hs => exact ⟨Q, next, us, rfl⟩
  obtain ⟨Q, next, us, hA⟩ := hq
  refine ⟨Q, next, us, hA, ?_⟩
  induction p generalizing W with
  | err e => exact absurd rfl ((C86_safe h hi).1 e)
  | ret r => exact ⟨_, Run.finish h hi hA, fun j hj => upd_other _ _ hj⟩
  | act a k ih =>
    obtain ⟨r, mem', e⟩ := (C86_safe h hi).2 a k rfl
    obtain ⟨W', h', e'⟩ := ih r (Run.access h hi e) (by simp only [upd_same])
    exact ⟨W', h', fun j hj => (e' j hj).trans (upd_other _ _ hj)⟩

/-- A thread's own steps: from `p` it goes on, after one access, as `q`. -/
def Next (q p : Prog (Result α β)) : Prop := ∃ a k r, p = .act a k ∧ q = k r

/-- **C86**, termination: no operation waits for another. `insert`, `get_or_insert`, `remove`, `get` and
`key_values_mut` on a tree of depth `D` make at most `20 * D` accesses whatever the other threads do (`get_or_insert` also if
`T::default()` panics), `default()` at most 5; and no operation, not even `drop`, can go on for ever. -/
theorem C86_wait_free : (∀ (D : Nat), 1 ≤ D → ∀ (t : Tree α) (o : Op α), AtMost (20 * D) (opTask β D t o)) ∧
    (∀ (D : Nat), 1 ≤ D → ∀ (t : Tree α) (k : Nat), AtMost (20 * D) (panicTask β D t k)) ∧
    (∀ D, AtMost 5 (newTask α β D)) ∧
    ∀ s : Nat → Prog (Result α β), ∃ n, ¬ Next (s (n + 1)) (s n) := by
  refine ⟨fun D hD t o => ?_, fun D hD t k => ?_, fun D => ?_, fun s => ?_⟩
  · exact AtMost.seq (20 * D) 0 (opProg_most hD t o) (fun _ => AtMost.ret) (by omega)
  · exact AtMost.seq (20 * D) 0 (getOrInsertPanic_most hD t k) (fun _ => AtMost.ret) (by omega)
  · exact AtMost.seq 5 0 (newTree_most D) (fun _ => AtMost.ret) (by omega)
  · refine Classical.byContradiction fun hn => ?_
    have hall : ∀ n, Next (s (n + 1)) (s n) := fun n => Classical.byContradiction fun h => hn ⟨n, h⟩
    have : ∀ (p : Prog (Result α β)) n, s n = p → False := by
      intro p
      induction p with
      | ret b => intro n e; obtain ⟨a, k, r, e1, -⟩ := hall n; rw [e] at e1; cases e1
      | err b => intro n e; obtain ⟨a, k, r, e1, -⟩ := hall n; rw [e] at e1; cases e1
      | act a k ih =>
        intro n e
        obtain ⟨a', k', r, e1, e2⟩ := hall n
        rw [e] at e1
        cases e1
        exact ih r (n + 1) e2
    exact this (s 0) 0 rfl

theorem treeData_most {D : Nat} (hD : 1 ≤ D) (t : Tree α) (index : Nat) (li : List Nat) :
    AtMost (2 * D) (Hibit.Threads.treeData D t index li) := by
  unfold Hibit.Threads.treeData
  exact AtMost.seq (2 * (D - 1)) 2 (getTerminalNode_most _ _ _) (fun r =>
    AtMost.seq 2 0 (getChildIdx_most _ _) (fun _ => AtMost.priv fun _ => AtMost.ite (AtMost.priv fun _ =>
      AtMost.priv fun _ => AtMost.ret) AtMost.ret) (by omega)) (by omega)

theorem muGather_most {S δ : Type} {d : S → Prog (Option δ)} {D : Nat} :
    ∀ (l : List (S × (Nat → Option δ) × List Nat)) (acc : List δ),
      (∀ a ∈ l, AtMost (2 * D * a.2.2.length) (d a.1)) →
      AtMost (2 * D * (l.flatMap (·.2.2)).length) (Hibit.Threads.muGather d (l.map (·.1)) acc)
  | [], _, _ => AtMost.ret
  | a :: l, acc, h => by
    have ih := fun acc => muGather_most l acc fun b hb => h b (List.mem_cons_of_mem _ hb)
    refine AtMost.seq _ (2 * D * (l.flatMap (·.2.2)).length) (h a List.mem_cons_self) (fun o => ?_) ?_
    · cases o with
      | none => exact ih acc
      | some v => exact AtMost.priv fun acc => ih acc
    · rw [List.flatMap_cons, List.length_append, Nat.mul_add]; exact Nat.le_refl _

theorem miGather_most {S δ : Type} {d : S → Prog (Option δ)} {D : Nat} :
    ∀ (l : List (S × (Nat → Option δ) × List Nat)) (acc : List δ),
      (∀ a ∈ l, AtMost (2 * D * a.2.2.length) (d a.1)) →
      AtMost (2 * D * (l.flatMap (·.2.2)).length) (Hibit.Threads.miGather d (l.map (·.1)) acc)
  | [], _, _ => AtMost.ret
  | a :: l, acc, h => by
    have ih := fun acc => miGather_most l acc fun b hb => h b (List.mem_cons_of_mem _ hb)
    refine AtMost.seq _ (2 * D * (l.flatMap (·.2.2)).length) (h a List.mem_cons_self) (fun o => ?_) ?_
    · cases o with
      | none => exact AtMost.ret
      | some v => exact AtMost.priv fun acc => ih acc
    · rw [List.flatMap_cons, List.length_append, Nat.mul_add]; exact Nat.le_refl _

/-- **C86**, lookups: `get(k)` on an expression in which `n` DenseTrees occur makes at most `2 * DEPTH * n` accesses,
whatever the other threads do. -/
theorem C86_lookup {W : World α β} {A : Meaning α β} (h : Run W A) {c x : Bool} {S C δ : Type} {P : PImpl S C δ} {s : S}
    {M : Nat → Option δ} {us : List Nat} (he : Expr W A c x P s M us) (k : Nat) (f : Option δ → β) :
    AtMost (2 * P.D * us.length) (getTask α P s k f) := by
  obtain ⟨O, J⟩ := run_inv h
  suffices hd : ∀ index li, AtMost (2 * P.D * us.length) (P.data s index li) from
    AtMost.seq _ 0 (AtMost.priv fun _ => AtMost.priv fun _ => hd _ _) (fun _ => AtMost.ret) (by omega)
  clear k f
  induction he with
  | @var i t g D M hv ha hg =>
    intro index li
    have hok := J.ok i
    rw [hv, ha] at hok
    cases hok with
    | holds hT =>
      obtain ⟨-, -, -, ⟨h1, -⟩, -⟩ := hT
      exact (treeData_most h1 t index li).mono (by simp only [List.length_singleton, Nat.mul_one]; exact Nat.le_refl _)
  | priv _ => exact fun _ _ => AtMost.lift
  | map f _ ih => exact fun index li => AtMost.seq _ 0 (ih index li) (fun _ => AtMost.ret) (Nat.le_refl _)
  | @union x0 x1 S0 C0 δ0 S1 C1 δ1 P0 P1 a b M0 M1 us0 us1 hN hD _ _ ih0 ih1 =>
    intro index li
    refine AtMost.seq _ _ (ih0 index li) (fun d0 => AtMost.seq _ 0 (ih1 index li) (fun d1 => ?_) (Nat.le_refl _)) ?_
    · exact AtMost.ite AtMost.ret AtMost.ret
    · rw [List.length_append, Nat.mul_add, ← hD]; exact Nat.le_refl _
  | @inter c x0 x1 S0 C0 δ0 S1 C1 δ1 P0 P1 a b M0 M1 us0 us1 hN hD _ _ ih0 ih1 =>
    intro index li
    refine AtMost.seq _ _ (ih0 index li) (fun d0 => AtMost.seq _ 0 (ih1 index li) (fun d1 => AtMost.lift)
      (Nat.le_refl _)) ?_
    rw [List.length_append, Nat.mul_add, ← hD]; exact Nat.le_refl _
  | @multiUnion x S C δ P l hD hne hcap _ ih =>
    intro index li
    exact AtMost.seq _ 0 (muGather_most l [] fun a ha => ih a ha index li)
      (fun _ => AtMost.ite AtMost.ret AtMost.ret) (Nat.le_refl _)
  | @multiInter c x S C δ P l hne hcap _ ih =>
    exact fun index li => miGather_most l [] fun a ha => ih a ha index li

/-- **C86**, indices out of range: an operation or a lookup with such an index panics before it makes any access. -/
theorem C86_out_of_range {D : Nat} (h9 : D ≤ 9) {k : Nat} (hk : 64 ^ D ≤ k) (t : Tree α) (v : α) (g : α → α) :
    opTask β D t (.insert k v) = .err .panic ∧ opTask β D t (.getOrInsert k v g) = .err .panic ∧
    opTask β D t (.remove k) = .err .panic ∧ opTask β D t (.get k) = .err .panic ∧
    panicTask β D t k = .err .panic ∧
    ∀ {S C δ : Type} (P : PImpl S C δ) (s : S) (j : Nat) (f : Option δ → β),
      min (width P.N ^ P.D) (2 ^ 64 - 1) ≤ j → getTask α P s j f = .err .panic := by
  have e : indexFrom 1 D k = .error .panic := by
    rw [indexFrom_ok h9, if_neg (by omega)]
  refine ⟨?_, ?_, ?_, ?_, ?_, fun P s j f hj => ?_⟩
  · simp only [opTask, opProg, Hibit.Threads.insert, e]; rfl
  · simp only [opTask, opProg, Hibit.Threads.getOrInsert, e]; rfl
  · simp only [opTask, opProg, Hibit.Threads.remove, e]; rfl
  · simp only [opTask, opProg, Hibit.Threads.get, e]; rfl
  · unfold panicTask Hibit.Threads.getOrInsertPanic; rw [e]; rfl
  · unfold getTask PImpl.get
    have e : indexFrom P.N P.D j = .error .panic := if_neg (by
      show ¬ j < min (width P.N ^ P.D) (2 ^ 64 - 1)
      omega)
    rw [e]; rfl

end

/-! ## A concrete schedule -/

theorem exLater (D v : Nat) (hD : D = 1 ∨ D = 2) : LaterHistory D (emptyMap : Nat → Option Nat) [.insert 5 v] := by
  have hc : ∀ M : Nat → Option Nat, card (64 ^ D) M < 2 ^ 32 := fun M => by
    have := card_le (64 ^ D) M
    rcases hD with rfl | rfl <;> omega
  refine ⟨fun op hop => ?_, ⟨hc _, hc _⟩, fun k hk => ?_⟩
  · simp only [List.mem_singleton] at hop
    subst hop
    show 5 < 64 ^ D
    rcases hD with rfl | rfl <;> decide
  · simp at hk

/-- Two trees of given depths; other code has a block at address 0. -/
theorem exTwo (D0 D1 : Nat) (h0 : 1 ≤ D0 ∧ D0 ≤ 9) (h1 : 1 ≤ D1 ∧ D1 ≤ 9) : ∃ W A, Run (α := Nat) (β := List Nat) W A ∧
    A.vars 0 = .holds ⟨.full, D0, emptyMap⟩ ∧ A.vars 1 = .holds ⟨.full, D1, emptyMap⟩ ∧
    (∀ j, 2 ≤ j → W.vars j = .empty ∧ A.vars j = .gone) ∧ A.own 0 = some [.byte 42] := by
  have R0 := Run.start (α := Nat) (β := List Nat) exMem_finite
  have R1 := Run.new R0 (i := 0) (D := D0) rfl rfl h0.1 h0.2
  have R2 := Run.new R1 (i := 1) (D := D1) rfl rfl h1.1 h1.2
  obtain ⟨Q, next, us, e, W', R3, k3⟩ := C86_progress R2 (i := 0) rfl
  cases e
  obtain ⟨Q, next, us, e, W'', R4, k4⟩ := C86_progress R3 (i := 1) (k3 1 (by decide))
  cases e
  refine ⟨_, _, R4, rfl, rfl, fun j hj => ?_, rfl⟩
  have n0 : j ≠ 0 := by omega
  have n1 : j ≠ 1 := by omega
  constructor
  · rw [k4 j n1, k3 j n0]
    simp only [upd_other _ _ n0, upd_other _ _ n1]
  · simp only [upd_other _ _ n0, upd_other _ _ n1]

/-- Nobody has borrowed anything while no operation is going on. -/
theorem notLent_of {A : Meaning Nat (List Nat)} (h0 : ∃ H, A.vars 0 = .holds H) (h1 : ∃ H, A.vars 1 = .holds H)
    (h : ∀ j, 2 ≤ j → A.vars j = .gone) (i : Nat) : A.NotLent i := by
  intro j Q next us hj hi
  obtain ⟨H0, h0⟩ := h0
  obtain ⟨H1, h1⟩ := h1
  match j, hj with
  | 0, hj => rw [h0] at hj; cases hj
  | 1, hj => rw [h1] at hj; cases hj
  | j + 2, hj => rw [h (j + 2) (by omega)] at hj; cases hj

/-- Two threads are in the middle of `insert(5, _)`, each on its own tree; `C86_safe`,
`C86_race_free` and `C86_progress` apply to both. -/
theorem exMiddle (D0 D1 : Nat) (h0 : D0 = 1 ∨ D0 = 2) (h1 : D1 = 1 ∨ D1 = 2) :
    ∃ W A, ∃ a b : Act, ∃ k k', Run (α := Nat) (β := List Nat) W A ∧ W.vars 0 = .busy (.act a k) ∧
    W.vars 1 = .busy (.act b k') ∧ ¬ Race a b ∧ A.own 0 = some [.byte 42] ∧
    A.vars 0 = .doing (fun v ds _ => v = none ∧ ds = []) (some ⟨.full, D0, put emptyMap 5 (some 50)⟩) [] ∧
    A.vars 1 = .doing (fun v ds _ => v = none ∧ ds = []) (some ⟨.full, D1, put emptyMap 5 (some 51)⟩) [] ∧
    ∀ j, 2 ≤ j → W.vars j = .empty ∧ A.vars j = .gone := by
  obtain ⟨W, A, R, a0, a1, hrest, hown⟩ := exTwo D0 D1 (by omega) (by omega)
  obtain ⟨t0, v0, -⟩ := C86_content R a0
  obtain ⟨t1, v1, -⟩ := C86_content R a1
  have nl := notLent_of ⟨_, a0⟩ ⟨_, a1⟩ (fun j hj => (hrest j hj).2)
  have R1 := Run.op R v0 a0 (nl 0) (exLater D0 50 h0) .full
  have nl1 : Meaning.NotLent (⟨upd A.vars 0 (.doing (fun v ds _ => v = none ∧ ds = [])
      (some ⟨.full, D0, put emptyMap 5 (some 50)⟩) []), A.own⟩ : Meaning Nat (List Nat)) 1 := by
    intro j Q next us hj hi
    by_cases e : j = 0
    · subst e; cases hj; exact nomatch hi
    · simp only [upd_other _ _ e] at hj
      exact nl 1 j Q next us hj hi
  have R2 := Run.op R1 (i := 1) (t := t1) (g := .full) (D := D1) (M := emptyMap) v1 a1 nl1 (exLater D1 51 h1) .full
  have e0 : ∃ a k, opTask (List Nat) D0 t0 (.insert 5 50) = .act a k := by
    rcases h0 with rfl | rfl <;> exact ⟨_, _, rfl⟩
  have e1 : ∃ a k, opTask (List Nat) D1 t1 (.insert 5 51) = .act a k := by
    rcases h1 with rfl | rfl <;> exact ⟨_, _, rfl⟩
  obtain ⟨a, k, e0⟩ := e0
  obtain ⟨b, k', e1⟩ := e1
  rw [e0, e1] at R2
  refine ⟨_, _, a, b, k, k', R2, rfl, rfl, ?_, hown, rfl, rfl, fun j hj => ?_⟩
  · exact (C86_race_free R2 (i := 0) rfl).1 1 b k' (by decide) rfl
  · have n0 : j ≠ 0 := by omega
    have n1 : j ≠ 1 := by omega
    simp only [upd_other _ _ n0, upd_other _ _ n1]
    exact hrest j hj

/-- Both finish, in any order, and both trees have their own value of key 5. -/
theorem exDone (D0 D1 : Nat) (h0 : D0 = 1 ∨ D0 = 2) (h1 : D1 = 1 ∨ D1 = 2) :
    ∃ W A, Run (α := Nat) (β := List Nat) W A ∧ A.vars 0 = .holds ⟨.full, D0, put emptyMap 5 (some 50)⟩ ∧
    A.vars 1 = .holds ⟨.full, D1, put emptyMap 5 (some 51)⟩ ∧ A.own 0 = some [.byte 42] ∧
    ∀ j, 2 ≤ j → W.vars j = .empty ∧ A.vars j = .gone := by
  obtain ⟨W, A, a, b, k, k', R, v0, v1, -, hown, a0, a1, hrest⟩ := exMiddle D0 D1 h0 h1
  obtain ⟨Q, next, us, e, W', R3, k3⟩ := C86_progress R v1
  rw [a1] at e
  cases e
  obtain ⟨Q, next, us, e, W'', R4, k4⟩ := C86_progress R3 (i := 0) ((k3 0 (by decide)).trans v0)
  have e : A.vars 0 = Task.doing Q next us := e
  rw [a0] at e
  cases e
  refine ⟨_, _, R4, rfl, rfl, hown, fun j hj => ?_⟩
  have n0 : j ≠ 0 := by omega
  have n1 : j ≠ 1 := by omega
  rw [k4 j n0, k3 j n1]
  simp only [upd_other _ _ n0, upd_other _ _ n1]
  exact hrest j hj

example : ∃ W A t0 t1, Run (α := Nat) (β := List Nat) W A ∧ W.vars 0 = .idle t0 ∧ W.vars 1 = .idle t1 ∧
    (Bytes.impl Nat 2).get (t0.inMem W.mem) 5 = .ok (some 50) ∧
    (Bytes.impl Nat 1).get (t1.inMem W.mem) 5 = .ok (some 51) ∧ W.mem.block 0 = some [.byte 42] := by
  obtain ⟨W, A, R, a0, a1, hown, -⟩ := exDone 2 1 (.inr rfl) (.inl rfl)
  obtain ⟨t0, w0, c0, -⟩ := C86_content R a0
  obtain ⟨t1, w1, c1, -⟩ := C86_content R a1
  refine ⟨_, _, t0, t1, R, w0, w1, ?_, ?_, ((C86_rest R).1 0 _ hown).1⟩
  · rw [tree_get (c0 rfl).isTree]; exact if_pos (by decide)
  · rw [tree_get (c1 rfl).isTree]; exact if_pos (by decide)

/-- A thread alone comes to the end of its operation. -/
theorem toEnd {α β : Type} {W : World α β} {A : Meaning α β} {i : Nat} {p : Prog (Result α β)} (h : Run W A)
    (hi : W.vars i = .busy p) :
    ∃ W' r, Run W' A ∧ W'.vars i = .busy (.ret r) ∧ ∀ j, j ≠ i → W'.vars j = W.vars j := by
  induction p generalizing W with
  | ret r => exact ⟨W, r, h, hi, fun _ _ => rfl⟩
  | err e => exact absurd rfl ((C86_safe h hi).1 e)
  | act a k ih =>
    obtain ⟨r, mem', e⟩ := (C86_safe h hi).2 a k rfl
    obtain ⟨W', r', h', e', k'⟩ := ih r (Run.access h hi e) (by simp only [upd_same])
    exact ⟨W', r', h', e', fun j hj => (k' j hj).trans (upd_other _ _ hj)⟩

/-- `C86_result`: a thread whose `default()` has come to its end. -/
example : ∃ W A r, Run (α := Nat) (β := List Nat) W A ∧ W.vars 0 = .busy (.ret r) ∧ r.value = none := by
  have R0 := Run.start (α := Nat) (β := List Nat) exMem_finite
  have R1 := Run.new R0 (i := 0) (D := 2) rfl rfl (by decide) (by decide)
  obtain ⟨W', r, R2, e, -⟩ := toEnd R1 (i := 0) rfl
  obtain ⟨Q, next, us, e1, hq, -⟩ := C86_result R2 e
  cases e1
  exact ⟨W', _, r, R2, e, hq.1⟩

/-- The sum of what two trees have for a key. -/
def exSum (p : Option Nat × Option Nat) : Nat := p.1.getD 0 + p.2.getD 0

/-- Three readers borrow the same two trees: thread 2 iterates over their union, thread 3 calls `get(5)` on their
intersection, thread 4 makes a tree of their sums; and all the while thread 5 makes a tree of its own. -/
theorem exReaders : ∃ (W : World Nat (List Nat)) (A : Meaning Nat (List Nat)), Run W A ∧
    (∃ p, W.vars 2 = .busy p) ∧ (∃ p, W.vars 3 = .busy p) ∧ (∃ p, W.vars 4 = .busy p) ∧ (∃ p, W.vars 5 = .busy p) ∧
    A.vars 2 = .doing (fun _ _ r => r = some [5]) none [0, 1] ∧
    A.vars 3 = .doing (fun _ _ r => r = some [101]) none [0, 1] ∧
    A.vars 4 = .doing (fun v ds _ => v = none ∧ ds = []) (some ⟨.full, 1, put emptyMap 5 (some 101)⟩) [0, 1] := by
  obtain ⟨W, A, R, a0, a1, hown, hrest⟩ := exDone 1 1 (.inl rfl) (.inl rfl)
  obtain ⟨t0, v0, -⟩ := C86_content R a0
  obtain ⟨t1, v1, -⟩ := C86_content R a1
  have E0 : ∀ {W' : World Nat (List Nat)} {A' : Meaning Nat (List Nat)}, W'.vars 0 = .idle t0 →
      A'.vars 0 = A.vars 0 → Expr W' A' true true (denseImpl Nat 1) t0 (put emptyMap 5 (some 50)) [0] :=
    fun hw ha => .var hw (ha.trans a0) (by decide)
  have E1 : ∀ {W' : World Nat (List Nat)} {A' : Meaning Nat (List Nat)}, W'.vars 1 = .idle t1 →
      A'.vars 1 = A.vars 1 → Expr W' A' true true (denseImpl Nat 1) t1 (put emptyMap 5 (some 51)) [1] :=
    fun hw ha => .var hw (ha.trans a1) (by decide)
  -- thread 2
  have R2 := Run.iter (i := 2) (n := 3) (fuel := wt 64 1) (fun r => r.filterMap (Option.map Prod.fst)) R
    (hrest 2 (by decide)).1 (hrest 2 (by decide)).2 (.union rfl rfl (E0 v0 rfl) (E1 v1 rfl)) (Nat.le_refl _)
  -- thread 3
  have R3 := Run.get (i := 3) (k := 5) (fun r => (r.map fun p => p.1 + p.2).toList) R2
    (hrest 3 (by decide)).1 (hrest 3 (by decide)).2 (.inter rfl rfl (E0 v0 rfl) (E1 v1 rfl)) (by decide) (by decide)
  -- thread 4
  have hm : ∀ k, (unionMap (put emptyMap 5 (some 50)) (put emptyMap 5 (some 51)) k).map exSum =
      put emptyMap 5 (some 101) k := by
    intro k
    by_cases e : k = 5
    · subst e; rfl
    · have : ∀ v : Nat, put emptyMap 5 (some v) k = none := fun v => if_neg e
      unfold unionMap
      simp only [this]
      rfl
  have hM := funext hm
  have R4 := Run.mat (i := 4) (g := .full) R3 (hrest 4 (by decide)).1 (hrest 4 (by decide)).2
    (.map exSum (.union rfl rfl (E0 v0 rfl) (E1 v1 rfl))) (.exact rfl) rfl (by decide)
    (by have := card_le (64 ^ 1) (fun k => (unionMap (put emptyMap 5 (some 50)) (put emptyMap 5 (some 51)) k).map exSum)
        show card (64 ^ 1) _ < 2 ^ 32
        omega)
  -- thread 5
  have R5 := Run.new (i := 5) (D := 2) R4 (hrest 5 (by decide)).1 (hrest 5 (by decide)).2 (by decide) (by decide)
  refine ⟨_, _, R5, ⟨_, rfl⟩, ⟨_, rfl⟩, ⟨_, rfl⟩, ⟨_, rfl⟩, ?_, ?_, ?_⟩
  · show Task.doing (fun _ _ r => r = some _) none [0, 1] = _
    congr 1
  · rfl
  · show Task.doing _ (some ⟨.full, 1, restrict (64 ^ 1) _⟩) [0, 1] = _
    rw [hM]
    congr 3
    funext k
    show (if k < 64 then put emptyMap 5 (some 101) k else none) = _
    split
    · rfl
    · exact (if_neg (by omega)).symm

/-- They come to their ends in any order, here 4, 2, 3, while thread 5 has not moved: thread 4 has its tree, the others
have read the right things, and nobody has damaged the trees they read. -/
example : ∃ (W : World Nat (List Nat)) (A : Meaning Nat (List Nat)) (r2 r3 : Result Nat (List Nat)) (t : Tree Nat),
    Run W A ∧ W.vars 2 = .busy (.ret r2) ∧ r2.found = some [5] ∧ W.vars 3 = .busy (.ret r3) ∧ r3.found = some [101] ∧
    W.vars 4 = .idle t ∧ (Bytes.impl Nat 1).get (t.inMem W.mem) 5 = .ok (some 101) := by
  obtain ⟨W, A, R, ⟨p2, v2⟩, ⟨p3, v3⟩, ⟨p4, v4⟩, -, a2, a3, a4⟩ := exReaders
  obtain ⟨Q, next, us, e, W', R1, k1⟩ := C86_progress R v4
  rw [a4] at e
  cases e
  obtain ⟨W2, r2, R2, e2, k2⟩ := toEnd R1 ((k1 2 (by decide)).trans v2)
  obtain ⟨W3, r3, R3, e3, k3⟩ := toEnd R2 ((k2 3 (by decide)).trans ((k1 3 (by decide)).trans v3))
  obtain ⟨t, w4, c4, -⟩ := C86_content R3 (i := 4) rfl
  have e2' := (k3 2 (by decide)).trans e2
  obtain ⟨Q, next, us, b2, q2, -⟩ := C86_result R3 e2'
  obtain ⟨Q', next', us', b3, q3, -⟩ := C86_result R3 e3
  have b2 : A.vars 2 = _ := b2
  have b3 : A.vars 3 = _ := b3
  rw [a2] at b2; cases b2
  rw [a3] at b3; cases b3
  refine ⟨_, _, r2, r3, t, R3, e2', q2, e3, q3, w4, ?_⟩
  rw [tree_get (c4 rfl).isTree]; exact if_pos (by decide)

/-- Thread 2 iterates over the multi-way union of two trees, folded to sums, thread 3 makes a tree of their multi-way
intersection. -/
example : ∃ (W : World Nat (List Nat)) (A : Meaning Nat (List Nat)), Run W A ∧
    (∃ p, W.vars 2 = .busy p) ∧ (∃ p, W.vars 3 = .busy p) ∧
    (∃ Q, A.vars 2 = .doing Q none [0, 1]) ∧
    ∃ Q M, A.vars 3 = .doing Q (some ⟨.block, 2, M⟩) [0, 1] ∧ M 5 = some 101 := by
  obtain ⟨W, A, R, a0, a1, hown, hrest⟩ := exDone 2 2 (.inr rfl) (.inr rfl)
  obtain ⟨t0, v0, -⟩ := C86_content R a0
  obtain ⟨t1, v1, -⟩ := C86_content R a1
  have E : ∀ {W' : World Nat (List Nat)} {A' : Meaning Nat (List Nat)}, W'.vars 0 = .idle t0 → W'.vars 1 = .idle t1 →
      A'.vars 0 = A.vars 0 → A'.vars 1 = A.vars 1 →
      ∀ a ∈ [(t0, put emptyMap 5 (some 50), [0]), (t1, put emptyMap 5 (some 51), [1])],
        Expr W' A' true true (denseImpl Nat 2) a.1 a.2.1 a.2.2 := by
    intro W' A' w0 w1 b0 b1 a ha
    simp only [List.mem_cons, List.not_mem_nil, or_false] at ha
    rcases ha with rfl | rfl
    · exact .var w0 (b0.trans a0) (by decide)
    · exact .var w1 (b1.trans a1) (by decide)
  have R2 := Run.iter (i := 2) (n := 3) (fuel := wt 64 2) (fun r => r.filterMap (Option.map Prod.snd)) R
    (hrest 2 (by decide)).1 (hrest 2 (by decide)).2
    (.map List.sum (.multiUnion (by decide) (by simp) (by simp) (E v0 v1 rfl rfl))) (Nat.le_refl _)
  have R3 := Run.mat (i := 3) (g := .block) R2 (hrest 3 (by decide)).1 (hrest 3 (by decide)).2
    (.map List.sum (.multiInter (by simp) (by simp) (E v0 v1 rfl rfl)))
    (.inexact rfl fun _ => ⟨5, by decide, fun h => by cases (show some 101 = none from h)⟩) rfl (by decide)
    (Nat.lt_of_le_of_lt (card_le _ _) (by decide))
  exact ⟨_, _, R3, ⟨_, rfl⟩, ⟨_, rfl⟩, ⟨_, rfl⟩, _, _, rfl, rfl⟩

/-- `C86_lookup`: a lookup in the intersection of two trees of depth 2 makes at most 8 accesses. -/
example : ∃ (W : World Nat (List Nat)) (A : Meaning Nat (List Nat)) (t0 t1 : Tree Nat), Run W A ∧ W.vars 0 = .idle t0 ∧
    W.vars 1 = .idle t1 ∧ AtMost 8 (getTask (β := List Nat) Nat (interP (denseImpl Nat 2) (denseImpl Nat 2)) (t0, t1) 5
      (fun r => (r.map fun p => p.1 + p.2).toList)) := by
  obtain ⟨W, A, R, a0, a1, hown, hrest⟩ := exDone 2 2 (.inr rfl) (.inr rfl)
  obtain ⟨t0, v0, -⟩ := C86_content R a0
  obtain ⟨t1, v1, -⟩ := C86_content R a1
  exact ⟨W, A, t0, t1, R, v0, v1, C86_lookup R (.inter rfl rfl (.var v0 a0 (by decide)) (.var v1 a1 (by decide))) 5 _⟩

/-- Thread 0 calls `get_or_insert(700)`, and its `T::default()` panics, while thread 1 is in the middle of a `get`;
afterwards tree 0 has its old content. -/
example : ∃ (W : World Nat (List Nat)) (A : Meaning Nat (List Nat)) (t : Tree Nat), Run W A ∧ (∃ p, W.vars 1 = .busy p) ∧
    W.vars 0 = .idle t ∧ (Bytes.impl Nat 2).get (t.inMem W.mem) 5 = .ok (some 50) ∧
    (Bytes.impl Nat 2).get (t.inMem W.mem) 700 = .ok none := by
  obtain ⟨W, A, R, a0, a1, hown, hrest⟩ := exDone 2 1 (.inr rfl) (.inl rfl)
  obtain ⟨t0, v0, -⟩ := C86_content R a0
  obtain ⟨t1, v1, -⟩ := C86_content R a1
  have nl := notLent_of ⟨_, a0⟩ ⟨_, a1⟩ (fun j hj => (hrest j hj).2)
  have R1 := Run.panics (k := 700) R v0 a0 (nl 0) (.inl rfl) (by decide)
  have nl1 : Meaning.NotLent (⟨upd A.vars 0 (.doing (fun v ds _ => v = put emptyMap 5 (some 50) 700 ∧ ds = [])
      (some ⟨.loose, 2, put emptyMap 5 (some 50)⟩) []), A.own⟩ : Meaning Nat (List Nat)) 1 := by
    intro j Q next us hj hi
    by_cases e : j = 0
    · subst e; cases hj; exact nomatch hi
    · simp only [upd_other _ _ e] at hj
      exact nl 1 j Q next us hj hi
  have R2 := Run.op R1 (i := 1) (t := t1) (g := .full) (D := 1) (M := put emptyMap 5 (some 51)) (o := .get 5) v1 a1 nl1
    ⟨fun op hop => by simp only [List.mem_singleton] at hop; subst hop; show 5 < 64 ^ 1; decide,
      ⟨Nat.lt_of_le_of_lt (card_le _ _) (by decide), Nat.lt_of_le_of_lt (card_le _ _) (by decide)⟩,
      fun k hk => by simp at hk⟩ .full
  obtain ⟨Q, next, us, e, W', R3, k3⟩ := C86_progress R2 (i := 0) rfl
  cases e
  obtain ⟨t, w, -, c, -⟩ := C86_content R3 (i := 0) rfl
  refine ⟨W', _, t, R3, ⟨_, k3 1 (by decide)⟩, w, ?_, ?_⟩
  · refine Eq.trans (tree_get (c (by decide)).isTree 5) ?_
    exact if_pos (by decide)
  · refine Eq.trans (tree_get (c (by decide)).isTree 700) ?_
    exact if_pos (by decide)

/-- `NotLent` forbids what the borrow checker forbids: a borrowed tree is not modified. -/
example : ∃ (W : World Nat (List Nat)) (A : Meaning Nat (List Nat)), Run W A ∧ ¬ A.NotLent 0 := by
  obtain ⟨W, A, R, -, -, -, -, a2, -⟩ := exReaders
  exact ⟨W, A, R, fun h => h 2 _ _ _ a2 (by decide)⟩

/-- An access to a static is a read: the static empty branch node is shared by all trees. -/
example : Touches (.load (.stat 0) 0 8 8) (.stat 0) 3 ∧ ¬ Race (.load (.stat 0) 0 8 8) (.load (.stat 0) 0 8 8) := by
  refine ⟨.inl ⟨rfl, by decide, by decide⟩, fun ⟨p, x, h⟩ => ?_⟩
  rcases h with ⟨_, h⟩ | ⟨h, _⟩ <;> exact h

/-- Two stores to one byte would race. -/
example : Race (.store (.heap 3) 8 1 [.byte 1]) (.load (.heap 3) 0 16 8) :=
  ⟨.heap 3, 8, .inr ⟨⟨rfl, by decide, by decide⟩, .inl ⟨rfl, by decide, by decide⟩⟩⟩

end Threads
end Hibit.Props
