import Verif.Dense.Cost
import Verif.Dense.Materialize
/-!
# DenseTree with an allocator that may refuse

The functions of `Dense/Model` that allocate, with an allocator that may return null: `ok c` says whether
the `c`-th call of `alloc` or `realloc` succeeds. The code checks no result (node.rs:195-204, 218-224,
242-249, 309-315): it writes the header through the pointer, which for a null pointer is undefined
behaviour. (`Vec` growth aborts the process and is not modelled.)
-/
namespace Hibit.Dense
open Hibit

/-! ## The model -/

/-- node.rs:193-208 `new`: `addr_of_mut!((*node).mask).write(..)` right after `alloc`. -/
def nodeNewF (ok : Nat → Bool) (h : Heap) (k : Kind) (cap : Nat) (e : Cell) : R (Heap × Nat) :=
  if ok h.next then nodeNew h k cap e else .error .ub

/-- node.rs:304-317: `(*new_ptr).capacity = new_capacity` right after `realloc`. -/
def nodeGrowF (ok : Nat → Bool) (h : Heap) (k : Kind) (a : Nat) (n : Node) :
    R (Heap × Nat × Node) :=
  if n.len = n.cap then
    if n.cap * 2 < 256 then
      if ok h.next then nodeGrow h k a n else .error .ub
    else .error .panic
  else .ok (h, a, n)

/-- node.rs:319-334: the rest of `insert` after growing. -/
def insertTail (h : Heap) (a : Nat) (n : Node) (index : Nat) (value : Cell) :
    R (Heap × Nat × Nat) := do
  let (_, mask) ← setBitUnchecked true n.mask index
  let d ← denseIndex mask index
  let cnt ← if d ≤ n.len then Except.ok (n.len - d) else .error .panic
  let cells ← copyCells n.cells d (d + 1) cnt
  let cells ← setU cells d value
  let len ← if n.len + 1 < 256 then Except.ok (n.len + 1) else .error .panic
  return (h.put a { n with mask := mask, len := len, cells := cells }, d, a)

/-- node.rs:298-335 `insert`. -/
def nodeInsertF (ok : Nat → Bool) (h : Heap) (k : Kind) (p : Ptr) (index : Nat) (value : Cell) :
    R (Heap × Nat × Nat) := do
  let (a, n) ← derefMut h p
  if n.kind ≠ k then .error .ub
  else
    let (h, a, n) ← nodeGrowF ok h k a n
    insertTail h a n index value

/-- dense_tree.rs:93-103, 136-146: a new terminal node, or a new branch whose sentinel is the empty node of
level `lvl`. -/
def newNodeF (ok : Nat → Bool) (h : Heap) (terminal : Prop) [Decidable terminal] (lvl D : Nat) :
    R (Heap × Nat) :=
  if terminal then nodeNewF ok h .term defaultCap (.idx 0)
  else do
    let e ← emptyNode lvl D
    nodeNewF ok h .branch defaultCap (.ptr e)

/-- dense_tree.rs:92-112 `default()`. -/
def defaultF (α : Type) (ok : Nat → Bool) (D : Nat) : R (DT α) := do
  let (h, a) ← newNodeF ok ⟨fun _ => none, 0⟩ (D = 1) 1 D
  return ⟨h, .heap a, [none], [usizeMod - 1]⟩

/-- dense_tree.rs:130-152. -/
def insertStepF (ok : Nat → Bool) (D : Nat) (indices : List Nat) (w : Walk) (N : Nat) :
    R (Walk × Bool) := do
  let innerIndex ← getP indices N
  let nodePtr ← w.read
  let n ← deref w.heap nodePtr
  let c ← n.contains innerIndex
  if c then
    let (a, n) ← derefMut w.heap nodePtr
    let d ← denseIndex n.mask innerIndex
    return ({ w with slot := .cell a d }, false)
  else
    let (h, child) ← newNodeF ok w.heap (N = D - 2) (N + 2) D
    let (h, d, a) ← nodeInsertF ok h .branch nodePtr innerIndex (.ptr (.heap child))
    let w ← { w with heap := h }.write (.heap a)
    return ({ w with slot := .cell a d }, false)

/-- dense_tree.rs:125-153. -/
def insertWalkF {α : Type} (ok : Nat → Bool) (D : Nat) (t : DT α) (indices : List Nat) : R Walk := do
  let (w, _) ← constLoop 0 (D - 1) (insertStepF ok D indices) ⟨t.heap, t.root, .root⟩
  return w

/-- dense_tree.rs:119-176 `get_or_insert_impl`. -/
def getOrInsertImplF {α : Type} (ok : Nat → Bool) (D : Nat) (t : DT α) (index : Nat) (ins : Bool)
    (value : α) : R (InsOut α) := do
  let indices ← levelIndices 1 D index
  let w ← insertWalkF ok D t indices
  let nodePtr ← w.read
  let innerIndex ← unwrapU indices.getLast?
  let n ← deref w.heap nodePtr
  let c ← n.contains innerIndex
  if c then
    let cell ← getChild w.heap nodePtr innerIndex
    let i ← cell.asIdx
    let t := { t with heap := w.heap, root := w.root }
    if ins then
      let old ← getU t.data i
      let old ← unwrapU old
      let data ← setU t.data i (some value)
      return ⟨{ t with data := data }, i, [old], true⟩
    else
      let old ← getU t.data i
      let _ ← unwrapU old
      return ⟨t, i, [], false⟩
  else
    let i := t.data.length
    let (h, _, a) ← nodeInsertF ok w.heap .term nodePtr innerIndex (.idx (i % 2 ^ 32))
    let w ← { w with heap := h }.write (.heap a)
    return ⟨⟨w.heap, w.root, t.data ++ [some value], t.keys ++ [index]⟩, i, [], true⟩

/-- One operation: `remove`, `get` and `key_values_mut` do not allocate. -/
def stepF {α : Type} (ok : Nat → Bool) (D : Nat) (t : DT α) : Op α → R (DT α × Option α × List α)
  | .insert k v => do
    let index ← indexFrom 1 D k
    let out ← getOrInsertImplF ok D t index true v
    return (out.tree, none, out.dropped)
  | .getOrInsert k dflt g => do
    let index ← indexFrom 1 D k
    let out ← getOrInsertImplF ok D t index false dflt
    let (t, v) ← writeRef out.tree out.dataIndex g
    return (t, some v, out.dropped)
  | op => step D t op

/-- A history. -/
def runF {α : Type} (ok : Nat → Bool) (D : Nat) (t : DT α) :
    List (Op α) → R (DT α × List (Option α × List α))
  | [] => .ok (t, [])
  | op :: ops => do
    let (t, o) ← stepF ok D t op
    let (t, os) ← runF ok D t ops
    return (t, o :: os)

/-! ## Relating the two -/

/-- `y` is `x` with failing allocations: if `x` succeeds from heap `h`, then `y` gives the same unless a
call of the allocator made by `x` fails, and then undefined behaviour. -/
def Guard {β : Type} (ok : Nat → Bool) (h : Heap) (hp : β → Heap) (x y : R β) : Prop :=
  ∀ r, x = .ok r → h.next ≤ (hp r).next ∧
    ((∀ c, h.next ≤ c → c < (hp r).next → ok c = true) → y = .ok r) ∧
    (∀ c, h.next ≤ c → c < (hp r).next → ok c = false → y = .error .ub)

section
variable {ok : Nat → Bool} {h : Heap} {β γ : Type} {hp : β → Heap} {hq : γ → Heap}

theorem Guard.pure {r : β} (e : (hp r).next = h.next) : Guard ok h hp (.ok r) (.ok r) := by
  intro r' e'
  cases e'
  exact ⟨by omega, fun _ => rfl, fun c h1 h2 _ => by omega⟩

theorem Guard.same {x : R β} (e : ∀ r, x = .ok r → (hp r).next = h.next) : Guard ok h hp x x := by
  intro r e'
  have := e r e'
  exact ⟨by omega, fun _ => e', fun c h1 h2 _ => by omega⟩

theorem Guard.error {e : Err} {y : R β} : Guard ok h hp (.error e) y := by
  intro r e'; cases e'

theorem Guard.bind {x y : R β} {f g : β → R γ} (hx : Guard ok h hp x y)
    (hf : ∀ r, x = .ok r → Guard ok (hp r) hq (f r) (g r)) : Guard ok h hq (x >>= f) (y >>= g) := by
  intro r e
  obtain ⟨s, e1, e2⟩ := bind_inv e
  obtain ⟨a1, a2, a3⟩ := hx s e1
  obtain ⟨b1, b2, b3⟩ := hf s e1 r e2
  refine ⟨by omega, fun hok => ?_, fun c h1 h2 hc => ?_⟩
  · rw [a2 fun c q1 q2 => hok c q1 (by omega)]
    exact b2 fun c q1 q2 => hok c (by omega) q2
  · by_cases hall : ∀ c, h.next ≤ c → c < (hp s).next → ok c = true
    · rw [a2 hall]
      have : (hp s).next ≤ c := by
        apply Nat.le_of_not_lt
        intro hlt
        rw [hall c h1 hlt] at hc
        cases hc
      exact b3 c this h2 hc
    · have : ∃ c, h.next ≤ c ∧ c < (hp s).next ∧ ok c = false := by
        apply Classical.byContradiction
        intro hne
        apply hall
        intro c q1 q2
        cases hb : ok c with
        | true => rfl
        | false => exact absurd ⟨c, q1, q2, hb⟩ hne
      obtain ⟨c', q1, q2, q3⟩ := this
      rw [a3 c' q1 q2 q3]
      rfl

/-- A step that does not touch the heap. -/
theorem Guard.read {δ : Type} {x : R δ} {f g : δ → R γ}
    (hf : ∀ r, x = .ok r → Guard ok h hq (f r) (g r)) : Guard ok h hq (x >>= f) (x >>= g) :=
  Guard.bind (hp := fun _ => h) (Guard.same fun _ _ => rfl) hf

theorem Guard.ite {p : Prop} [Decidable p] {x x' y y' : R β} (h1 : p → Guard ok h hp x y)
    (h2 : ¬ p → Guard ok h hp x' y') :
    Guard ok h hp (if p then x else x') (if p then y else y') := by
  by_cases hp' : p
  · rw [if_pos hp', if_pos hp']; exact h1 hp'
  · rw [if_neg hp', if_neg hp']; exact h2 hp'

theorem nodeNew_guard (k : Kind) (cap : Nat) (e : Cell) :
    Guard ok h (·.1) (nodeNew h k cap e) (nodeNewF ok h k cap e) := by
  rintro ⟨h', c⟩ e1
  obtain ⟨-, a1, -, -⟩ := nodeNew_inv e1
  simp only
  refine ⟨by omega, fun hok => ?_, fun c h1 h2 hc => ?_⟩
  · unfold nodeNewF
    rw [if_pos (hok h.next (Nat.le_refl _) (by omega))]; exact e1
  · have : c = h.next := by omega
    subst this
    unfold nodeNewF
    simp [hc]

theorem nodeGrow_guard (k : Kind) (a : Nat) (n : Node) :
    Guard ok h (·.1) (nodeGrow h k a n) (nodeGrowF ok h k a n) := by
  rintro ⟨h', a', n'⟩ e1
  unfold nodeGrowF
  have e0 := e1
  unfold nodeGrow at e1
  by_cases hl : n.len = n.cap
  · rw [if_pos hl] at e1 ⊢
    by_cases hc : n.cap * 2 < 256
    · rw [if_pos hc] at e1 ⊢
      simp only [bind_ok] at e1
      obtain ⟨h1, e2, e1⟩ := bind_inv e1
      have hn : h1.next = h.next := by
        unfold Heap.dealloc at e2
        obtain ⟨m, -, e2⟩ := bind_inv e2
        split at e2
        · cases e2; rfl
        · cases e2
      have hn' : h'.next = h.next + 1 := by
        simp only [pure_eq_ok, Except.ok.injEq, Prod.mk.injEq] at e1
        rw [← e1.1, ← hn]; rfl
      simp only
      refine ⟨by omega, fun hok => ?_, fun c q1 q2 hcc => ?_⟩
      · rw [if_pos (hok h.next (Nat.le_refl _) (by omega))]; exact e0
      · have : c = h.next := by omega
        subst this
        simp [hcc]
    · rw [if_neg hc] at e1
      cases e1
  · rw [if_neg hl] at e1 ⊢
    cases e1
    exact ⟨Nat.le_refl _, fun _ => rfl, fun c h1 h2 _ => by simp only at h2; omega⟩

theorem insertTail_next {a : Nat} {n : Node} {i : Nat} {v : Cell} {r : Heap × Nat × Nat}
    (e : insertTail h a n i v = .ok r) : r.1.next = h.next := by
  unfold insertTail at e
  obtain ⟨⟨_, mask⟩, -, e⟩ := bind_inv e
  obtain ⟨d, -, e⟩ := bind_inv e
  by_cases h1 : d ≤ n.len
  · simp only [if_pos h1, bind_ok] at e
    obtain ⟨cells, -, e⟩ := bind_inv e
    obtain ⟨cells, -, e⟩ := bind_inv e
    by_cases h2 : n.len + 1 < 256
    · simp only [if_pos h2, bind_ok] at e
      cases e
      rfl
    · simp only [if_neg h2, bind_err] at e
      cases e
  · simp only [if_neg h1, bind_err] at e
    cases e

theorem nodeInsert_eq (h : Heap) (k : Kind) (p : Ptr) (i : Nat) (v : Cell) :
    nodeInsert h k p i v = (derefMut h p >>= fun x => if x.2.kind ≠ k then .error .ub
      else nodeGrow h k x.1 x.2 >>= fun y => insertTail y.1 y.2.1 y.2.2 i v) := rfl

theorem nodeInsert_guard (k : Kind) (p : Ptr) (i : Nat) (v : Cell) :
    Guard ok h (·.1) (nodeInsert h k p i v) (nodeInsertF ok h k p i v) := by
  rw [nodeInsert_eq]
  refine Guard.read fun ⟨a, n⟩ _ => Guard.ite (fun _ => Guard.error) fun _ => ?_
  exact Guard.bind (nodeGrow_guard k a n) fun ⟨h', a', n'⟩ _ => Guard.same fun r e => insertTail_next e

/-- The same choice with an allocator that never fails. -/
theorem newNode_guard (terminal : Prop) [Decidable terminal] (lvl D : Nat) :
    Guard ok h (·.1) (if terminal then nodeNew h .term defaultCap (.idx 0)
      else emptyNode lvl D >>= fun e => nodeNew h .branch defaultCap (.ptr e))
      (newNodeF ok h terminal lvl D) := by
  refine Guard.ite (fun _ => nodeNew_guard _ _ _) fun _ => ?_
  exact Guard.read fun e _ => nodeNew_guard _ _ _

theorem insertStep_eq (D : Nat) (indices : List Nat) (w : Walk) (N : Nat) :
    insertStep D indices w N = (getP indices N >>= fun i => w.read >>= fun p => deref w.heap p >>= fun n =>
      n.contains i >>= fun c => if c then derefMut w.heap p >>= fun x => denseIndex x.2.mask i >>= fun d =>
        .ok ({ w with slot := .cell x.1 d }, false)
      else (if N = D - 2 then nodeNew w.heap .term defaultCap (.idx 0)
        else emptyNode (N + 2) D >>= fun e => nodeNew w.heap .branch defaultCap (.ptr e)) >>= fun y =>
        nodeInsert y.1 .branch p i (.ptr (.heap y.2)) >>= fun z =>
        Walk.write { w with heap := z.1 } (.heap z.2.2) >>= fun w' =>
        .ok ({ w' with slot := .cell z.2.2 z.2.1 }, false)) := by
  unfold insertStep
  by_cases hN : N = D - 2
  · simp only [if_pos hN]; rfl
  · simp only [if_neg hN, bind_assoc_R]; rfl

theorem insertStep_guard (D : Nat) (indices : List Nat) (w : Walk) (N : Nat) :
    Guard ok w.heap (·.1.heap) (insertStep D indices w N) (insertStepF ok D indices w N) := by
  rw [insertStep_eq]
  refine Guard.read fun i _ => Guard.read fun p _ => Guard.read fun n _ => Guard.read fun c _ =>
    Guard.ite (fun _ => Guard.read fun x _ => Guard.read fun d _ => Guard.pure rfl) fun _ => ?_
  refine Guard.bind (newNode_guard (N = D - 2) (N + 2) D) fun y _ => ?_
  refine Guard.bind (nodeInsert_guard _ _ _ _) fun z _ => ?_
  refine Guard.bind (hp := (·.heap)) (Guard.same fun w' e => (write_inv e).1) fun w' _ => Guard.pure rfl

theorem visitList_guard {σ : Type} {hp : σ → Heap} {v v' : σ → Nat → R (σ × Bool)}
    (hv : ∀ s n, Guard ok (hp s) (fun r => hp r.1) (v s n) (v' s n)) : ∀ (l : List Nat) (s : σ),
    Guard ok (hp s) (fun r => hp r.1) (visitList v l s) (visitList v' l s)
  | [], s => Guard.pure rfl
  | n :: l, s => by
    refine Guard.bind (hv s n) fun ⟨s', b⟩ _ => ?_
    exact Guard.ite (fun _ => Guard.pure rfl) fun _ => visitList_guard hv l s'

theorem insertWalk_guard {α : Type} {D : Nat} (h1 : 1 ≤ D) (h9 : D ≤ 9) (t : DT α) (indices : List Nat) :
    Guard ok t.heap (·.heap) (insertWalk D t indices) (insertWalkF ok D t indices) := by
  unfold insertWalk insertWalkF
  rw [constLoop_eq _ _ _ _ (by omega) (by omega), constLoop_eq _ _ _ _ (by omega) (by omega)]
  refine Guard.bind (visitList_guard (hp := (·.heap)) (fun s n => insertStep_guard D indices s n) _ _)
    fun r _ => Guard.pure rfl

theorem getOrInsertImpl_guard {α : Type} {D : Nat} (h1 : 1 ≤ D) (h9 : D ≤ 9) (t : DT α) (k : Nat) (ins : Bool) (v : α) :
    Guard ok t.heap (·.tree.heap) (getOrInsertImpl D t k ins v) (getOrInsertImplF ok D t k ins v) := by
  unfold getOrInsertImpl getOrInsertImplF
  refine Guard.read fun indices _ => Guard.bind (insertWalk_guard h1 h9 t indices) fun w _ =>
    Guard.read fun p _ => Guard.read fun i _ => Guard.read fun n _ => Guard.read fun c _ => ?_
  refine Guard.ite (fun _ => Guard.read fun cell _ => Guard.read fun d _ =>
    Guard.ite (fun _ => ?_) fun _ => ?_) fun _ => ?_
  · exact Guard.read fun _ _ => Guard.read fun _ _ => Guard.read fun _ _ => Guard.pure rfl
  · exact Guard.read fun _ _ => Guard.read fun _ _ => Guard.pure rfl
  · refine Guard.bind (nodeInsert_guard _ _ _ _) fun z _ => ?_
    exact Guard.bind (hp := (·.heap)) (Guard.same fun w' e => (write_inv e).1) fun w' _ => Guard.pure rfl

theorem step_guard {α : Type} {D : Nat} (h1 : 1 ≤ D) (h9 : D ≤ 9) (t : DT α) (op : Op α) :
    Guard ok t.heap (·.1.heap) (step D t op) (stepF ok D t op) := by
  cases op with
  | insert k v =>
    simp only [step, stepF, insert, bind_assoc_R]
    exact Guard.read fun i _ => Guard.bind (getOrInsertImpl_guard h1 h9 t i true v) fun out _ => Guard.pure rfl
  | getOrInsert k d g =>
    simp only [step, stepF, getOrInsert, bind_assoc_R]
    refine Guard.read fun i _ => Guard.bind (getOrInsertImpl_guard h1 h9 t i false d) fun out _ => ?_
    refine Guard.bind (hp := (·.1.heap)) (Guard.same fun r e => ?_) fun r _ => Guard.pure rfl
    unfold writeRef at e
    obtain ⟨_, -, e⟩ := bind_inv e
    obtain ⟨_, -, e⟩ := bind_inv e
    obtain ⟨_, -, e⟩ := bind_inv e
    cases e
    rfl
  | remove k =>
    refine Guard.same fun r e => ?_
    simp only [step] at e
    obtain ⟨⟨t2, v⟩, e1, e⟩ := bind_inv e
    cases e
    obtain ⟨as, -, a2, -⟩ := remove_cost h9 h1 e1
    exact a2
  | get k =>
    refine Guard.same fun r e => ?_
    simp only [step] at e
    obtain ⟨v, -, e⟩ := bind_inv e
    cases e; rfl
  | mutValues g =>
    refine Guard.same fun r e => ?_
    simp only [step] at e
    obtain ⟨t2, e1, e⟩ := bind_inv e
    cases e
    unfold mutValues at e1
    obtain ⟨_, -, e1⟩ := bind_inv e1
    cases e1; rfl

theorem run_guard {α : Type} {D : Nat} (h1 : 1 ≤ D) (h9 : D ≤ 9) : ∀ (ops : List (Op α)) (t : DT α),
    Guard ok t.heap (·.1.heap) (run D t ops) (runF ok D t ops)
  | [], t => Guard.pure rfl
  | op :: ops, t => by
    refine Guard.bind (step_guard h1 h9 t op) fun ⟨t', o⟩ _ => ?_
    exact Guard.bind (run_guard h1 h9 ops t') fun r _ => Guard.pure rfl

theorem default_guard (α : Type) (D : Nat) :
    Guard ok ⟨fun _ => none, 0⟩ (·.heap) (Dense.default α D) (defaultF α ok D) := by
  have e : Dense.default α D = ((if D = 1 then nodeNew ⟨fun _ => none, 0⟩ .term defaultCap (.idx 0)
      else emptyNode 1 D >>= fun e => nodeNew ⟨fun _ => none, 0⟩ .branch defaultCap (.ptr e)) >>= fun y =>
      .ok ⟨y.1, .heap y.2, [none], [usizeMod - 1]⟩) := by
    unfold Dense.default
    by_cases hN : D = 1
    · simp only [if_pos hN]; rfl
    · simp only [if_neg hN, bind_assoc_R]; rfl
  rw [e]
  exact Guard.bind (newNode_guard (D = 1) 1 D) fun r _ => Guard.pure rfl

end

end Hibit.Dense
