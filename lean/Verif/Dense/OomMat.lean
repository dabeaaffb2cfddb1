import Verif.Dense.Oom
import Verif.Dense.MatLemmas
/-!
# `materialize` with an allocator that may refuse

Continues `Dense/Oom`: the functions of `Dense/Materialize` that allocate. `ok c` says whether the `c`-th
request for a node succeeds. The result of `alloc` is not checked (node.rs:218-224, 242-249).
-/
namespace Hibit.Dense
open Hibit

variable {S C α : Type}

/-! ## The model -/

/-- node.rs:240-252 `raw_new`: the header is written right after `alloc`. -/
def rawNewF (ok : Nat → Bool) (h : Heap) (k : Kind) (cap : Nat) (mask : Word) : R (Heap × Nat) :=
  if ok h.next then .ok (rawNew h k cap mask) else .error .ub

/-- node.rs:211-237 `from_parts`: the header is written right after `alloc`. -/
def fromPartsF (ok : Nat → Bool) (h : Heap) (mask : Word) (childs : List Cell) (emptyChild : Cell) :
    R (Heap × Nat) :=
  if ok h.next then .ok (fromParts h mask childs emptyChild) else .error .ub

/-- from.rs:28-50 `make_terminal_node`. -/
def makeTerminalNodeF (ok : Nat → Bool) (I : Impl S C α) (s : S) (st : MSt C α) (mask : Word)
    (cap keyAcc : Nat) : R (MSt C α × Nat) := do
  let (h, a) ← rawNewF ok st.heap .term cap mask
  let st ← traverseM (terminalBody I s a keyAcc) { st with heap := h } [mask]
  let h ← rawFinalize st.heap .term a (.idx 0)
  return ({ st with heap := h }, a)

/-- from.rs:53-94 `from_exact_sparse_hierarchy`. -/
def fromExactF (ok : Nat → Bool) (I : Impl S C α) (s : S) : (left : Nat) → MSt C α →
    (index keyAcc : Nat) → R (MSt C α × Nat)
  | 0, st, index, keyAcc => do
    if I.exact = true then
      let (m, c) ← I.selectU st.cur s (I.D - 1) index
      let mask ← getU m 0
      let cap ← capOf mask
      makeTerminalNodeF ok I s { st with cur := c } mask cap keyAcc
    else .error .panic
  | left + 1, st, index, keyAcc => do
    if I.exact = true then
      let n := I.D - 1 - (left + 1)
      let (m, c) ← I.selectU st.cur s n index
      let mask ← getU m 0
      let cap ← capOf mask
      let (h, a) ← rawNewF ok st.heap .branch cap mask
      let st ← traverseM (exactBody I.D n a keyAcc (fromExactF ok I s left))
        { st with heap := h, cur := c } [mask]
      let e ← emptyNode (n + 1) I.D
      let h ← rawFinalize st.heap .branch a (.ptr e)
      return ({ st with heap := h }, a)
    else .error .panic

/-- from.rs:97-137 `from_sparse_hierarchy`. -/
def fromSparseF (ok : Nat → Bool) (I : Impl S C α) (s : S) : (left : Nat) → MSt C α →
    (index keyAcc : Nat) → R (MSt C α × Option Nat)
  | 0, st, index, keyAcc => do
    let (m, c) ← I.selectU st.cur s (I.D - 1) index
    let mask ← getU m 0
    let cap ← capOf mask
    let (st, a) ← makeTerminalNodeF ok I s { st with cur := c } mask cap keyAcc
    return (st, some a)
  | left + 1, st, index, keyAcc => do
    let n := I.D - 1 - (left + 1)
    let (m, c) ← I.selectU st.cur s n index
    let mask ← getU m 0
    let v ← traverseM (sparseBody I.D n keyAcc (fromSparseF ok I s left))
      ⟨{ st with cur := c }, 0, []⟩ [mask]
    if v.childs.isEmpty then return (v.st, none)
    else
      let e ← emptyNode (n + 1) I.D
      let (h, a) ← fromPartsF ok v.st.heap v.nodeMask v.childs (.ptr e)
      return ({ v.st with heap := h }, some a)

/-- from.rs:169-178: the root. -/
def fromRootF (ok : Nat → Bool) (I : Impl S C α) (s : S) (st : MSt C α) : R (MSt C α × Nat) := do
  if I.exact = true then fromExactF ok I s (I.D - 1) st 0 0
  else
    let (st, a) ← fromSparseF ok I s (I.D - 1) st 0 0
    let a ← unwrapU a
    return (st, a)

/-- from.rs:153-181. -/
def materializeF (ok : Nat → Bool) (I : Impl S C α) (s : S) : R (DT α) := do
  let cur ← I.new s
  let (st, a) ← fromRootF ok I s ⟨⟨fun _ => none, 0⟩, cur, [none], [usizeMod - 1]⟩
  return ⟨st.heap, .heap a, st.data, st.keys⟩

/-! ## Relating the two -/

section
variable {ok : Nat → Bool} {h : Heap}

theorem Guard.alloc {β : Type} {hp : β → Heap} {r : β} (e : (hp r).next = h.next + 1) :
    Guard ok h hp (.ok r) (if ok h.next then .ok r else .error .ub) := by
  intro r' e'
  cases e'
  refine ⟨by omega, fun hok => ?_, fun c h1 h2 hc => ?_⟩
  · rw [hok h.next (Nat.le_refl _) (by omega)]; rfl
  · have : c = h.next := by omega
    subst this
    rw [hc]; rfl

theorem rawNew_guard (k : Kind) (cap : Nat) (mask : Word) :
    Guard ok h (·.1) (.ok (rawNew h k cap mask)) (rawNewF ok h k cap mask) := Guard.alloc rfl

theorem fromParts_guard (mask : Word) (childs : List Cell) (e : Cell) :
    Guard ok h (·.1) (.ok (fromParts h mask childs e)) (fromPartsF ok h mask childs e) := Guard.alloc rfl

theorem rawPush_next {k : Kind} {a : Nat} {v : Cell} {h' : Heap} (e : rawPush h k a v = .ok h') :
    h'.next = h.next := by
  unfold rawPush at e
  obtain ⟨n, -, e⟩ := bind_inv e
  split at e
  · cases e
  · obtain ⟨cells, -, e⟩ := bind_inv e
    simp only at e
    split at e
    · cases e; rfl
    · cases e

theorem rawFinalize_next {k : Kind} {a : Nat} {v : Cell} {h' : Heap} (e : rawFinalize h k a v = .ok h') :
    h'.next = h.next := by
  unfold rawFinalize at e
  obtain ⟨n, -, e⟩ := bind_inv e
  split at e
  · cases e
  · obtain ⟨cells, -, e⟩ := bind_inv e
    simp only at e
    split at e
    · simp only [bind_ok] at e
      split at e
      · cases e; rfl
      · cases e
    · cases e

theorem traverseM_guard {σ : Type} {hp : σ → Heap} {b b' : σ → Nat → R σ}
    (hb : ∀ s n, Guard ok (hp s) hp (b s n) (b' s n)) (s : σ) (m : Mask) :
    Guard ok (hp s) hp (traverseM b s m) (traverseM b' s m) := by
  rw [traverseM_eq, traverseM_eq]
  generalize m.ones = l
  induction l generalizing s with
  | nil => exact Guard.pure rfl
  | cons n l ih =>
    rw [List.foldlM_cons, List.foldlM_cons]
    exact Guard.bind (hb s n) fun s' _ => ih s'

theorem makeTerminalNode_guard (I : Impl S C α) (s : S) (st : MSt C α) (mask : Word) (cap keyAcc : Nat) :
    Guard ok st.heap (·.1.heap) (makeTerminalNode I s st mask cap keyAcc)
      (makeTerminalNodeF ok I s st mask cap keyAcc) := by
  show Guard _ _ _ ((.ok (rawNew st.heap .term cap mask) : R _) >>= fun x =>
    traverseM (terminalBody I s x.2 keyAcc) { st with heap := x.1 } [mask] >>= fun st =>
    rawFinalize st.heap .term x.2 (.idx 0) >>= fun h => .ok ({ st with heap := h }, x.2)) _
  refine Guard.bind (rawNew_guard _ _ _) fun ⟨h1, a⟩ _ => ?_
  refine Guard.bind (hp := fun r : MSt C α => r.heap) (traverseM_guard (hp := fun r : MSt C α => r.heap) (fun st n => ?_) _ _) fun st1 _ => ?_
  · unfold terminalBody
    refine Guard.read fun d _ => Guard.read fun k _ => ?_
    exact Guard.bind (hp := id) (Guard.same fun h' e => rawPush_next e) fun h' _ => Guard.pure rfl
  · exact Guard.bind (hp := id) (Guard.same fun h' e => rawFinalize_next e) fun h' _ => Guard.pure rfl

theorem fromExact_guard (I : Impl S C α) (s : S) : ∀ (left : Nat) (st : MSt C α) (index keyAcc : Nat),
    Guard ok st.heap (·.1.heap) (fromExact I s left st index keyAcc)
      (fromExactF ok I s left st index keyAcc)
  | 0, st, index, keyAcc => by
    unfold fromExact fromExactF
    refine Guard.ite (fun _ => ?_) fun _ => Guard.error
    exact Guard.read fun ⟨m, c⟩ _ => Guard.read fun mask _ => Guard.read fun cap _ =>
      makeTerminalNode_guard I s { st with cur := c } mask cap keyAcc
  | left + 1, st, index, keyAcc => by
    unfold fromExact fromExactF
    refine Guard.ite (fun _ => ?_) fun _ => Guard.error
    refine Guard.read fun ⟨m, c⟩ _ => Guard.read fun mask _ => Guard.read fun cap _ => ?_
    show Guard _ _ _ ((.ok (rawNew st.heap .branch cap mask) : R _) >>= fun x =>
      traverseM (exactBody I.D (I.D - 1 - (left + 1)) x.2 keyAcc (fromExact I s left))
        { st with heap := x.1, cur := c } [mask] >>= fun st =>
      emptyNode (I.D - 1 - (left + 1) + 1) I.D >>= fun e =>
      rawFinalize st.heap .branch x.2 (.ptr e) >>= fun h => .ok ({ st with heap := h }, x.2)) _
    refine Guard.bind (rawNew_guard _ _ _) fun ⟨h1, a⟩ _ => ?_
    refine Guard.bind (hp := fun r : MSt C α => r.heap) (traverseM_guard (hp := fun r : MSt C α => r.heap) (fun st n => ?_) _ _)
      fun st1 _ => Guard.read fun e _ => ?_
    · unfold exactBody
      refine Guard.read fun b _ => Guard.read fun k _ => ?_
      refine Guard.bind (fromExact_guard I s left st n k) fun ⟨st', ch⟩ _ => ?_
      exact Guard.bind (hp := id) (Guard.same fun h' e => rawPush_next e) fun h' _ => Guard.pure rfl
    · exact Guard.bind (hp := id) (Guard.same fun h' e => rawFinalize_next e) fun h' _ => Guard.pure rfl

theorem fromSparse_guard (I : Impl S C α) (s : S) : ∀ (left : Nat) (st : MSt C α) (index keyAcc : Nat),
    Guard ok st.heap (·.1.heap) (fromSparse I s left st index keyAcc)
      (fromSparseF ok I s left st index keyAcc)
  | 0, st, index, keyAcc => by
    unfold fromSparse fromSparseF
    refine Guard.read fun ⟨m, c⟩ _ => Guard.read fun mask _ => Guard.read fun cap _ => ?_
    exact Guard.bind (makeTerminalNode_guard I s { st with cur := c } mask cap keyAcc)
      fun ⟨st', a⟩ _ => Guard.pure rfl
  | left + 1, st, index, keyAcc => by
    unfold fromSparse fromSparseF
    refine Guard.read fun ⟨m, c⟩ _ => Guard.read fun mask _ => ?_
    refine Guard.bind (hp := fun r : SSt C α => r.st.heap) (traverseM_guard (hp := fun r : SSt C α => r.st.heap) (fun v n => ?_) _ _)
      fun v _ => Guard.ite (fun _ => Guard.pure rfl) fun _ => Guard.read fun e _ => ?_
    · unfold sparseBody
      refine Guard.read fun b _ => Guard.read fun k _ => ?_
      refine Guard.bind (fromSparse_guard I s left v.st n k) fun ⟨st', ch⟩ _ => ?_
      cases ch with
      | none => exact Guard.pure rfl
      | some c =>
        refine Guard.read fun ⟨x, nm⟩ _ => Guard.ite (fun _ => Guard.pure rfl) fun _ => Guard.error
    · show Guard _ _ _ ((.ok (fromParts v.st.heap v.nodeMask v.childs (.ptr e)) : R _) >>= fun x =>
        .ok ({ v.st with heap := x.1 }, some x.2)) _
      exact Guard.bind (fromParts_guard _ _ _) fun ⟨h', a⟩ _ => Guard.pure rfl

theorem materialize_guard (I : Impl S C α) (s : S) :
    Guard ok ⟨fun _ => none, 0⟩ (·.heap) (materialize I s) (materializeF ok I s) := by
  unfold materialize materializeF
  refine Guard.read fun cur _ => ?_
  refine Guard.bind (hp := fun r : MSt C α × Nat => r.1.heap) ?_ fun ⟨st, a⟩ _ => Guard.pure rfl
  unfold fromRoot fromRootF
  refine Guard.ite (fun _ => ?_) fun _ => ?_
  · exact fromExact_guard I s _ ⟨⟨fun _ => none, 0⟩, cur, [none], [usizeMod - 1]⟩ 0 0
  · exact Guard.bind (fromSparse_guard I s _ ⟨⟨fun _ => none, 0⟩, cur, [none], [usizeMod - 1]⟩ 0 0)
      fun ⟨st, a⟩ _ => Guard.read fun a' _ => Guard.pure rfl

end

end Hibit.Dense
