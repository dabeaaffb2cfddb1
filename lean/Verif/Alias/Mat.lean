import Verif.Alias.Read
import Verif.Dense.MatLemmas
/-!
# `materialize`, with the references made into the nodes under construction

`raw_push_within_capacity` and `raw_finalize` hold a `&mut NodeHeader` while they write the children through the node's pointer.
The borrows of the source tree are those of its own reads (`Alias/Read` for a DenseTree) and are not part of this state.
-/
namespace Hibit.Alias
open Hibit Hibit.Dense

/-! ## Model -/

/-- node.rs:240-252 `raw_new`: raw writes. -/
def rawNew (k : Kind) (cap : Nat) (mask : Word) (z : St) : R (Nat × St) := do
  let (a, z) := alloc ⟨k, 0, 0, 0, List.replicate cap .uninit⟩ z
  let z ← writeMask (.heap a) none mask z
  let z ← writeCap (.heap a) none cap z
  let z ← writeLen (.heap a) none 0 z
  return (a, z)

/-- node.rs:261-274 `raw_push_within_capacity`. -/
def rawPush (k : Kind) (a : Nat) (value : Cell) (z : St) : R St := do
  checkKind (.heap a) k z
  let (t, z) ← headerMut (.heap a) z
  let (len, z) ← readLen (.heap a) t z
  let z ← writeCell (.heap a) len none value z
  let (len, z) ← readLen (.heap a) t z
  let len ← if len + 1 < 256 then Except.ok (len + 1) else .error .panic
  writeLen (.heap a) t len z

/-- node.rs:277-292 `raw_finalize`, with its `debug_assert!`. -/
def rawFinalize (k : Kind) (a : Nat) (emptyChild : Cell) (z : St) : R St := do
  checkKind (.heap a) k z
  let (t, z) ← headerMut (.heap a) z
  let (len, z) ← readLen (.heap a) t z
  let z ← writeCell (.heap a) len none emptyChild z
  let (len, z) ← readLen (.heap a) t z
  let len ← if len + 1 < 256 then Except.ok (len + 1) else .error .panic
  let z ← writeLen (.heap a) t len z
  let (len, z) ← readLen (.heap a) t z
  let (cap, z) ← readCap (.heap a) t z
  if len ≤ cap then return z else .error .panic

/-- `copy_nonoverlapping` into the children through the node's pointer, from position `d` on. -/
def writeCells (a : Nat) : (d : Nat) → List Cell → St → R St
  | _, [], z => .ok z
  | d, c :: cs, z => do
    let z ← writeCell (.heap a) d none c z
    writeCells a (d + 1) cs z

/-- node.rs:211-237 `from_parts`: raw writes. -/
def fromParts (mask : Word) (childs : List Cell) (emptyChild : Cell) (z : St) : R (Nat × St) := do
  let (a, z) := alloc ⟨.branch, 0, 0, 0, List.replicate (childs.length + 1) .uninit⟩ z
  let z ← writeMask (.heap a) none mask z
  let z ← writeCap (.heap a) none ((childs.length + 1) % 256) z
  let z ← writeLen (.heap a) none (childs.length % 256) z
  let z ← writeCells a 0 childs z
  let z ← writeCell (.heap a) childs.length none emptyChild z
  return (a, z)

/-- As `Dense.MSt`. -/
structure MSt (C α : Type) where
  st : St
  cur : C
  data : List (Option α)
  keys : List Nat

section
variable {S C α : Type}

/-- from.rs:40-47. -/
def terminalBody (I : Impl S C α) (s : S) (a keyAcc : Nat) (w : MSt C α) (index : Nat) : R (MSt C α) := do
  let data ← I.curDataU w.cur s index
  let key ← addUsize keyAcc index
  let z ← rawPush .term a (.idx (w.data.length % 2 ^ 32)) w.st
  return ⟨z, w.cur, w.data ++ [some data], w.keys ++ [key]⟩

/-- from.rs:28-50 `make_terminal_node`. -/
def makeTerminalNode (I : Impl S C α) (s : S) (w : MSt C α) (mask : Word) (cap keyAcc : Nat) : R (MSt C α × Nat) := do
  let (a, z) ← rawNew .term cap mask w.st
  let w ← traverseM (terminalBody I s a keyAcc) { w with st := z } [mask]
  let z ← rawFinalize .term a (.idx 0) w.st
  return ({ w with st := z }, a)

/-- from.rs:77-90. -/
def exactBody (D n a keyAcc : Nat) (rec : MSt C α → Nat → Nat → R (MSt C α × Nat)) (w : MSt C α) (index : Nat) :
    R (MSt C α) := do
  let b ← blockStart D n index
  let keyAcc ← addUsize keyAcc b
  let (w, child) ← rec w index keyAcc
  let z ← rawPush .branch a (.ptr (.heap child)) w.st
  return { w with st := z }

/-- from.rs:53-94 `from_exact_sparse_hierarchy`. -/
def fromExact (I : Impl S C α) (s : S) : (left : Nat) → MSt C α → (index keyAcc : Nat) → R (MSt C α × Nat)
  | 0, w, index, keyAcc => do
    if I.exact = true then
      let (m, c) ← I.selectU w.cur s (I.D - 1) index
      let mask ← getU m 0
      let cap ← capOf mask
      makeTerminalNode I s { w with cur := c } mask cap keyAcc
    else .error .panic
  | left + 1, w, index, keyAcc => do
    if I.exact = true then
      let (m, c) ← I.selectU w.cur s (I.D - 1 - (left + 1)) index
      let mask ← getU m 0
      let cap ← capOf mask
      let (a, z) ← rawNew .branch cap mask w.st
      let w ← traverseM (exactBody I.D (I.D - 1 - (left + 1)) a keyAcc (fromExact I s left))
        { w with st := z, cur := c } [mask]
      let e ← emptyNode (I.D - 1 - (left + 1) + 1) I.D
      let z ← rawFinalize .branch a (.ptr e) w.st
      return ({ w with st := z }, a)
    else .error .panic

/-- As `Dense.SSt`. -/
structure SSt (C α : Type) where
  w : MSt C α
  nodeMask : Word
  childs : List Cell

/-- from.rs:124-131. -/
def sparseBody (D n keyAcc : Nat) (rec : MSt C α → Nat → Nat → R (MSt C α × Option Nat)) (v : SSt C α) (index : Nat) :
    R (SSt C α) := do
  let b ← blockStart D n index
  let keyAcc ← addUsize keyAcc b
  let (w, child) ← rec v.w index keyAcc
  match child with
  | some c =>
    let (_, nodeMask) ← setBitUnchecked true v.nodeMask index
    if v.childs.length < 64 then return ⟨w, nodeMask, v.childs ++ [.ptr (.heap c)]⟩
    else .error .ub
  | none => return { v with w := w }

/-- from.rs:97-137 `from_sparse_hierarchy`. -/
def fromSparse (I : Impl S C α) (s : S) : (left : Nat) → MSt C α → (index keyAcc : Nat) → R (MSt C α × Option Nat)
  | 0, w, index, keyAcc => do
    let (m, c) ← I.selectU w.cur s (I.D - 1) index
    let mask ← getU m 0
    let cap ← capOf mask
    let (w, a) ← makeTerminalNode I s { w with cur := c } mask cap keyAcc
    return (w, some a)
  | left + 1, w, index, keyAcc => do
    let (m, c) ← I.selectU w.cur s (I.D - 1 - (left + 1)) index
    let mask ← getU m 0
    let v ← traverseM (sparseBody I.D (I.D - 1 - (left + 1)) keyAcc (fromSparse I s left))
      ⟨{ w with cur := c }, 0, []⟩ [mask]
    if v.childs.isEmpty then return (v.w, none)
    else
      let e ← emptyNode (I.D - 1 - (left + 1) + 1) I.D
      let (a, z) ← fromParts v.nodeMask v.childs (.ptr e) v.w.st
      return ({ v.w with st := z }, some a)

/-- from.rs:169-178. -/
def fromRoot (I : Impl S C α) (s : S) (w : MSt C α) : R (MSt C α × Nat) := do
  if I.exact = true then fromExact I s (I.D - 1) w 0 0
  else
    let (w, a) ← fromSparse I s (I.D - 1) w 0 0
    let a ← unwrapU a
    return (w, a)

/-- from.rs:153-181 `FromHibitTree::from_sparse_hierarchy`. -/
def materialize (I : Impl S C α) (s : S) : R (Vecs α × St) := do
  let cur ← I.new s
  let (w, a) ← fromRoot I s ⟨⟨⟨fun _ => none, 0⟩, .stat 0, fun _ => [], 0⟩, cur, [none], [usizeMod - 1]⟩
  return (⟨w.data, w.keys⟩, { w.st with root := .heap a })

end

/-! ## Nodes under construction -/

theorem rawNew_ok (k : Kind) (cap : Nat) (mask : Word) (z : St) :
    ∃ z', rawNew k cap mask z = .ok ((Dense.rawNew z.heap k cap mask).2, z') ∧
      z'.heap = (Dense.rawNew z.heap k cap mask).1 := by
  obtain ⟨a0, a1, -⟩ := alloc_eff ⟨k, 0, 0, 0, List.replicate cap .uninit⟩ z
  generalize hz0 : (alloc ⟨k, 0, 0, 0, List.replicate cap .uninit⟩ z) = r0 at a0 a1
  obtain ⟨a', z0⟩ := r0
  simp only at a0 a1
  subst a0
  have n0 := alloc_node z.heap ⟨k, 0, 0, 0, List.replicate cap .uninit⟩
  rw [← a1] at n0
  obtain ⟨z1, e1, h1, -⟩ := writeMask_ok n0 (t := none) (Or.inr rfl) mask
  have n1 : z1.heap.node z.heap.next = some ⟨k, mask, 0, 0, List.replicate cap .uninit⟩ := by rw [h1]; exact put_node _ _ _
  obtain ⟨z2, e2, h2, -⟩ := writeCap_ok n1 (t := none) (Or.inr rfl) cap
  have n2 : z2.heap.node z.heap.next = some ⟨k, mask, cap, 0, List.replicate cap .uninit⟩ := by rw [h2]; exact put_node _ _ _
  obtain ⟨z3, e3, h3, -⟩ := writeLen_ok n2 (t := none) (Or.inr rfl) 0
  refine ⟨z3, ?_, ?_⟩
  · unfold rawNew
    rw [hz0]
    simp only
    rw [e1, bind_ok, e2, bind_ok, e3, bind_ok]
    rfl
  · rw [h3, h2, h1, put_put, put_put, a1, alloc_put]
    rfl

/-- The common part of `raw_push_within_capacity` and `raw_finalize`. -/
theorem push_ok {k : Kind} {a : Nat} {c : Cell} {z : St} {n : Node} {cells : List Cell} (hn : z.heap.node a = some n)
    (hk : n.kind = k) (hs : setU n.cells n.len c = .ok cells) (hl : n.len + 1 < 256) :
    ∃ z1 z2 z3 z4 z5 t, checkKind (.heap a) k z = .ok () ∧ headerMut (.heap a) z = .ok (t, z1) ∧
      readLen (.heap a) t z1 = .ok (n.len, z2) ∧ writeCell (.heap a) n.len none c z2 = .ok z3 ∧
      readLen (.heap a) t z3 = .ok (n.len, z4) ∧ writeLen (.heap a) t (n.len + 1) z4 = .ok z5 ∧
      z5.heap = z.heap.put a { n with len := n.len + 1, cells := cells } ∧
      ∀ pl ∈ hdr (.heap a), Can z5 pl .read t := by
  obtain ⟨z1, e1, f1, c1⟩ := headerMut_ok a z
  have n1 : z1.heap.node a = some n := by rw [f1.heap]; exact hn
  obtain ⟨z2, e2, f2⟩ := readLen_ok (c1 _ (len_hdr _)).read (deref_heap n1)
  have n2 : z2.heap.node a = some n := by rw [f2.heap]; exact n1
  have c2 : ∀ pl ∈ hdr (.heap a), Can z2 pl .write (some z.next) := fun pl hp => f2.keep _ _ (c1 pl hp)
  obtain ⟨z3, e3, g3, f3⟩ := writeCell_ok n2 (t := none) (d := n.len) (Or.inr rfl) hs
  have n3 : z3.heap.node a = some { n with cells := cells } := by rw [g3]; exact put_node _ _ _
  have c3 : ∀ pl ∈ hdr (.heap a), Can z3 pl .write (some z.next) := fun pl hp =>
    (c2 pl hp).sframe f3 fun h => hdr_not_cell hp ⟨_, h⟩
  obtain ⟨z4, e4, f4⟩ := readLen_ok (c3 _ (len_hdr _)).read (deref_heap n3)
  have n4 : z4.heap.node a = some { n with cells := cells } := by rw [f4.heap]; exact n3
  have c4 : ∀ pl ∈ hdr (.heap a), Can z4 pl .write (some z.next) := fun pl hp => f4.keep _ _ (c3 pl hp)
  obtain ⟨z5, e5, g5, f5⟩ := writeLen_ok n4 (c4 _ (len_hdr _)) (n.len + 1)
  refine ⟨z1, z2, z3, z4, z5, some z.next, checkKind_ok hn hk, e1, e2, e3, e4, e5, ?_, fun pl hp => (f5.keep _ _ (c4 pl hp)).read⟩
  rw [g5, f4.heap, g3, f2.heap, f1.heap, put_put]

theorem rawPush_ok {k : Kind} {a : Nat} {c : Cell} {z : St} {h : Heap} (e : Dense.rawPush z.heap k a c = .ok h) :
    ∃ z', rawPush k a c z = .ok z' ∧ z'.heap = h := by
  unfold Dense.rawPush at e
  obtain ⟨n, hn, e⟩ := bind_inv e
  have hn := unwrapU_inv hn
  by_cases hk : n.kind ≠ k
  · rw [if_pos hk] at e; cases e
  rw [if_neg hk] at e
  have hk : n.kind = k := Decidable.of_not_not hk
  obtain ⟨cells, hs, e⟩ := bind_inv e
  by_cases hl : n.len + 1 < 256
  · rw [if_pos hl, bind_ok] at e
    cases e
    obtain ⟨z1, z2, z3, z4, z5, t, e0, e1, e2, e3, e4, e5, g, -⟩ := push_ok hn hk hs hl
    refine ⟨z5, ?_, g⟩
    unfold rawPush
    rw [e0, bind_ok, e1, bind_ok]
    simp only
    rw [e2, bind_ok]
    simp only
    rw [e3, bind_ok, e4, bind_ok]
    simp only
    rw [if_pos hl, bind_ok, e5]
  · rw [if_neg hl] at e; cases e

theorem rawFinalize_ok {k : Kind} {a : Nat} {c : Cell} {z : St} {h : Heap} (e : Dense.rawFinalize z.heap k a c = .ok h) :
    ∃ z', rawFinalize k a c z = .ok z' ∧ z'.heap = h := by
  unfold Dense.rawFinalize at e
  obtain ⟨n, hn, e⟩ := bind_inv e
  have hn := unwrapU_inv hn
  by_cases hk : n.kind ≠ k
  · rw [if_pos hk] at e; cases e
  rw [if_neg hk] at e
  have hk : n.kind = k := Decidable.of_not_not hk
  obtain ⟨cells, hs, e⟩ := bind_inv e
  by_cases hl : n.len + 1 < 256
  · rw [if_pos hl, bind_ok] at e
    simp only at e
    by_cases hc : n.len + 1 ≤ n.cap
    · rw [if_pos hc] at e
      cases e
      obtain ⟨z1, z2, z3, z4, z5, t, e0, e1, e2, e3, e4, e5, g, c5⟩ := push_ok hn hk hs hl
      have n5 : z5.heap.node a = some { n with len := n.len + 1, cells := cells } := by rw [g]; exact put_node _ _ _
      obtain ⟨z6, e6, f6⟩ := readLen_ok (c5 _ (len_hdr _)) (deref_heap n5)
      have n6 : z6.heap.node a = some { n with len := n.len + 1, cells := cells } := by rw [f6.heap]; exact n5
      obtain ⟨z7, e7, f7⟩ := touch_ok (f6.keep _ _ (c5 _ (cap_hdr _)))
      refine ⟨z7, ?_, by rw [f7.heap, f6.heap, g]⟩
      unfold rawFinalize
      rw [e0, bind_ok, e1, bind_ok]
      simp only
      rw [e2, bind_ok]
      simp only
      rw [e3, bind_ok, e4, bind_ok]
      simp only
      rw [if_pos hl, bind_ok, e5, bind_ok, e6, bind_ok]
      simp only
      unfold readCap
      rw [e7, bind_ok, f7.heap, deref_heap n6, bind_ok]
      simp only [pure_eq_ok, bind_ok]
      rw [if_pos hc]
    · rw [if_neg hc] at e; cases e
  · rw [if_neg hl] at e; cases e

theorem writeCells_ok {a : Nat} {k : Kind} {m : Word} {cap len : Nat} : ∀ (cs pre : List Cell) (r : Nat) (z : St),
    z.heap.node a = some ⟨k, m, cap, len, pre ++ List.replicate (cs.length + r) .uninit⟩ →
    ∃ z', writeCells a pre.length cs z = .ok z' ∧
      z'.heap = z.heap.put a ⟨k, m, cap, len, pre ++ cs ++ List.replicate r .uninit⟩
  | [], pre, r, z, hn => by
    refine ⟨z, rfl, ?_⟩
    simp only [List.length_nil, Nat.zero_add] at hn
    simp only [List.append_nil]
    obtain ⟨⟨nd, nx⟩, rt, st, nt⟩ := z
    simp only [Heap.put, Heap.mk.injEq, and_true] at hn ⊢
    funext x
    unfold upd
    by_cases hx : x = a
    · rw [if_pos hx, hx]; exact hn
    · rw [if_neg hx]
  | c :: cs, pre, r, z, hn => by
    obtain ⟨z1, e1, g1, -⟩ := writeCell_ok hn (t := none) (d := pre.length) (c := c)
      (cells := pre ++ [c] ++ List.replicate (cs.length + r) .uninit) (Or.inr rfl) (by
        unfold setU
        rw [if_pos (by simp only [List.length_append, List.length_replicate, List.length_cons]; omega)]
        congr 1
        rw [show (c :: cs).length + r = (cs.length + r) + 1 by simp only [List.length_cons]; omega, List.replicate_succ]
        simp)
    have n1 : z1.heap.node a = some ⟨k, m, cap, len, (pre ++ [c]) ++ List.replicate (cs.length + r) .uninit⟩ := by
      rw [g1]; exact put_node _ _ _
    obtain ⟨z2, e2, g2⟩ := writeCells_ok cs (pre ++ [c]) r z1 n1
    refine ⟨z2, ?_, ?_⟩
    · unfold writeCells
      rw [e1, bind_ok]
      rw [show pre.length + 1 = (pre ++ [c]).length by simp]
      exact e2
    · rw [g2, g1, put_put]
      simp

theorem fromParts_ok (mask : Word) (childs : List Cell) (c : Cell) (z : St) :
    ∃ z', fromParts mask childs c z = .ok ((Dense.fromParts z.heap mask childs c).2, z') ∧
      z'.heap = (Dense.fromParts z.heap mask childs c).1 := by
  obtain ⟨a0, a1, -⟩ := alloc_eff ⟨.branch, 0, 0, 0, List.replicate (childs.length + 1) .uninit⟩ z
  generalize hz0 : (alloc ⟨.branch, 0, 0, 0, List.replicate (childs.length + 1) .uninit⟩ z) = r0 at a0 a1
  obtain ⟨a', z0⟩ := r0
  simp only at a0 a1
  subst a0
  have n0 := alloc_node z.heap ⟨.branch, 0, 0, 0, List.replicate (childs.length + 1) .uninit⟩
  rw [← a1] at n0
  obtain ⟨z1, e1, h1, -⟩ := writeMask_ok n0 (t := none) (Or.inr rfl) mask
  have n1 : z1.heap.node z.heap.next = some ⟨.branch, mask, 0, 0, List.replicate (childs.length + 1) .uninit⟩ := by
    rw [h1]; exact put_node _ _ _
  obtain ⟨z2, e2, h2, -⟩ := writeCap_ok n1 (t := none) (Or.inr rfl) ((childs.length + 1) % 256)
  have n2 : z2.heap.node z.heap.next =
      some ⟨.branch, mask, (childs.length + 1) % 256, 0, List.replicate (childs.length + 1) .uninit⟩ := by
    rw [h2]; exact put_node _ _ _
  obtain ⟨z3, e3, h3, -⟩ := writeLen_ok n2 (t := none) (Or.inr rfl) (childs.length % 256)
  have n3 : z3.heap.node z.heap.next = some ⟨.branch, mask, (childs.length + 1) % 256, childs.length % 256,
      [] ++ List.replicate (childs.length + 1) .uninit⟩ := by
    rw [h3]; exact put_node _ _ _
  obtain ⟨z4, e4, h4⟩ := writeCells_ok childs [] 1 z3 n3
  have n4 : z4.heap.node z.heap.next = some ⟨.branch, mask, (childs.length + 1) % 256, childs.length % 256,
      [] ++ childs ++ List.replicate 1 .uninit⟩ := by
    rw [h4]; exact put_node _ _ _
  obtain ⟨z5, e5, h5, -⟩ := writeCell_ok n4 (t := none) (d := childs.length) (c := c) (cells := childs ++ [c]) (Or.inr rfl) (by
    unfold setU
    rw [if_pos (by simp)]
    simp)
  refine ⟨z5, ?_, ?_⟩
  · unfold fromParts
    rw [hz0]
    simp only
    rw [e1, bind_ok, e2, bind_ok, e3, bind_ok]
    simp only [List.length_nil] at e4
    rw [e4, bind_ok, e5, bind_ok]
    rfl
  · rw [h5, h4, h3, h2, h1, put_put, put_put, put_put, put_put, a1, alloc_put]
    rfl

/-! ## The construction -/

/-- A traversal whose body succeeds whenever the plain one does. -/
theorem traverseM_ok {σ σ' : Type} (P : σ → σ' → Prop) {body : σ → Nat → R σ} {body' : σ' → Nat → R σ'} {m : Mask}
    (hb : ∀ st st' i r, P st st' → body st i = .ok r → ∃ r', body' st' i = .ok r' ∧ P r r') {st r : σ} {st' : σ'}
    (e : traverseM body st m = .ok r) (hp : P st st') : ∃ r', traverseM body' st' m = .ok r' ∧ P r r' := by
  rw [traverseM_eq] at e ⊢
  generalize m.ones = l at e ⊢
  induction l generalizing st st' with
  | nil => cases e; exact ⟨st', rfl, hp⟩
  | cons i l ih =>
    rw [List.foldlM_cons] at e ⊢
    obtain ⟨s1, e1, e⟩ := bind_inv e
    obtain ⟨s1', e1', hp1⟩ := hb _ _ _ _ hp e1
    rw [e1', bind_ok]
    exact ih hp1 e

section
variable {S C α : Type}

/-- The same construction, with borrows. -/
structure MSame (u : Dense.MSt C α) (w : MSt C α) : Prop where
  heap : w.st.heap = u.heap
  cur : w.cur = u.cur
  data : w.data = u.data
  keys : w.keys = u.keys

theorem terminalBody_ok {I : Impl S C α} {s : S} {a keyAcc : Nat} {u r : Dense.MSt C α} {w : MSt C α} {i : Nat}
    (hm : MSame u w) (e : Dense.terminalBody I s a keyAcc u i = .ok r) :
    ∃ r', terminalBody I s a keyAcc w i = .ok r' ∧ MSame r r' := by
  obtain ⟨h1, h2, h3, h4⟩ := hm
  unfold Dense.terminalBody at e
  obtain ⟨d, hd, e⟩ := bind_inv e
  obtain ⟨key, hkey, e⟩ := bind_inv e
  simp only [pushData] at e
  obtain ⟨h, hh, e⟩ := bind_inv e
  cases e
  rw [← h1, ← h3] at hh
  obtain ⟨z, e1, g⟩ := rawPush_ok hh
  refine ⟨⟨z, w.cur, w.data ++ [some d], w.keys ++ [key]⟩, ?_, g, h2, by rw [h3], by rw [h4]⟩
  unfold terminalBody
  rw [h2, hd, bind_ok, hkey, bind_ok, e1, bind_ok]
  rfl

theorem makeTerminalNode_ok {I : Impl S C α} {s : S} {u r : Dense.MSt C α} {w : MSt C α} {mask : Word} {cap keyAcc a : Nat}
    (hm : MSame u w) (e : Dense.makeTerminalNode I s u mask cap keyAcc = .ok (r, a)) :
    ∃ r', makeTerminalNode I s w mask cap keyAcc = .ok (r', a) ∧ MSame r r' := by
  unfold Dense.makeTerminalNode at e
  simp only at e
  obtain ⟨u1, hu, e⟩ := bind_inv e
  obtain ⟨h, hh, e⟩ := bind_inv e
  cases e
  obtain ⟨z1, e1, g1⟩ := rawNew_ok .term cap mask w.st
  rw [hm.heap] at e1 g1
  obtain ⟨w2, e2, m2⟩ := traverseM_ok MSame
    (body' := terminalBody I s (Dense.rawNew u.heap .term cap mask).2 keyAcc) (fun _ _ _ _ h h' => terminalBody_ok h h')
    (st' := { w with st := z1 }) hu ⟨g1, hm.cur, hm.data, hm.keys⟩
  rw [← m2.heap] at hh
  obtain ⟨z3, e3, g3⟩ := rawFinalize_ok hh
  refine ⟨{ w2 with st := z3 }, ?_, g3, m2.cur, m2.data, m2.keys⟩
  unfold makeTerminalNode
  rw [e1, bind_ok]
  simp only
  rw [e2, bind_ok, e3, bind_ok]
  rfl

theorem fromExact_ok {I : Impl S C α} {s : S} : ∀ (left : Nat) {u r : Dense.MSt C α} {w : MSt C α} {index keyAcc a : Nat},
    MSame u w → Dense.fromExact I s left u index keyAcc = .ok (r, a) →
    ∃ r', fromExact I s left w index keyAcc = .ok (r', a) ∧ MSame r r'
  | 0, u, r, w, index, keyAcc, a, hm, e => by
    unfold Dense.fromExact at e
    unfold fromExact
    by_cases hx : I.exact = true
    · rw [if_pos hx] at e ⊢
      obtain ⟨⟨m, c⟩, h1, e⟩ := bind_inv e
      obtain ⟨mask, h2, e⟩ := bind_inv e
      obtain ⟨cap, h3, e⟩ := bind_inv e
      obtain ⟨r', e1, m1⟩ := makeTerminalNode_ok (u := { u with cur := c }) (w := { w with cur := c }) ⟨hm.heap, rfl, hm.data, hm.keys⟩ e
      refine ⟨r', ?_, m1⟩
      rw [hm.cur, h1, bind_ok]
      simp only at h2 ⊢
      rw [h2, bind_ok, h3, bind_ok]
      exact e1
    · rw [if_neg hx] at e; cases e
  | left + 1, u, r, w, index, keyAcc, a, hm, e => by
    unfold Dense.fromExact at e
    unfold fromExact
    by_cases hx : I.exact = true
    · rw [if_pos hx] at e ⊢
      simp only at e
      obtain ⟨⟨m, c⟩, h1, e⟩ := bind_inv e
      obtain ⟨mask, h2, e⟩ := bind_inv e
      obtain ⟨cap, h3, e⟩ := bind_inv e
      simp only at e
      obtain ⟨u1, h4, e⟩ := bind_inv e
      obtain ⟨en, h5, e⟩ := bind_inv e
      obtain ⟨h, h6, e⟩ := bind_inv e
      cases e
      obtain ⟨z1, e1, g1⟩ := rawNew_ok .branch cap mask w.st
      rw [hm.heap] at e1 g1
      obtain ⟨w2, e2, m2⟩ := traverseM_ok MSame
        (body' := exactBody I.D (I.D - 1 - (left + 1)) (Dense.rawNew u.heap .branch cap mask).2 keyAcc (fromExact I s left))
        (fun x x' i y hxx hy => by
          unfold Dense.exactBody at hy
          obtain ⟨b, hb, hy⟩ := bind_inv hy
          obtain ⟨k, hk, hy⟩ := bind_inv hy
          obtain ⟨⟨y1, child⟩, hr, hy⟩ := bind_inv hy
          simp only at hy
          obtain ⟨hp, hpu, hy⟩ := bind_inv hy
          cases hy
          obtain ⟨y1', er, mr⟩ := fromExact_ok left hxx hr
          rw [← mr.heap] at hpu
          obtain ⟨z', ez, gz⟩ := rawPush_ok hpu
          refine ⟨{ y1' with st := z' }, ?_, gz, mr.cur, mr.data, mr.keys⟩
          unfold exactBody
          rw [hb, bind_ok, hk, bind_ok, er, bind_ok]
          simp only
          rw [ez, bind_ok]
          rfl)
        (st' := { w with st := z1, cur := c }) h4 ⟨g1, rfl, hm.data, hm.keys⟩
      rw [← m2.heap] at h6
      obtain ⟨z3, e3, g3⟩ := rawFinalize_ok h6
      refine ⟨{ w2 with st := z3 }, ?_, g3, m2.cur, m2.data, m2.keys⟩
      rw [hm.cur, h1, bind_ok]
      simp only at h2 ⊢
      rw [h2, bind_ok, h3, bind_ok, e1, bind_ok]
      simp only
      rw [e2, bind_ok, h5, bind_ok, e3, bind_ok]
      rfl
    · rw [if_neg hx] at e; cases e

/-- The same local variables. -/
structure SSame (u : Dense.SSt C α) (w : SSt C α) : Prop where
  st : MSame u.st w.w
  mask : w.nodeMask = u.nodeMask
  childs : w.childs = u.childs

theorem fromSparse_ok {I : Impl S C α} {s : S} : ∀ (left : Nat) {u r : Dense.MSt C α} {w : MSt C α} {index keyAcc : Nat}
    {a : Option Nat}, MSame u w → Dense.fromSparse I s left u index keyAcc = .ok (r, a) →
    ∃ r', fromSparse I s left w index keyAcc = .ok (r', a) ∧ MSame r r'
  | 0, u, r, w, index, keyAcc, a, hm, e => by
    unfold Dense.fromSparse at e
    unfold fromSparse
    obtain ⟨⟨m, c⟩, h1, e⟩ := bind_inv e
    obtain ⟨mask, h2, e⟩ := bind_inv e
    obtain ⟨cap, h3, e⟩ := bind_inv e
    obtain ⟨⟨r1, a1⟩, h4, e⟩ := bind_inv e
    cases e
    obtain ⟨r', e1, m1⟩ := makeTerminalNode_ok (u := { u with cur := c }) (w := { w with cur := c }) ⟨hm.heap, rfl, hm.data, hm.keys⟩ h4
    refine ⟨r', ?_, m1⟩
    rw [hm.cur, h1, bind_ok]
    simp only at h2 ⊢
    rw [h2, bind_ok, h3, bind_ok, e1, bind_ok]
    rfl
  | left + 1, u, r, w, index, keyAcc, a, hm, e => by
    unfold Dense.fromSparse at e
    unfold fromSparse
    simp only at e
    obtain ⟨⟨m, c⟩, h1, e⟩ := bind_inv e
    obtain ⟨mask, h2, e⟩ := bind_inv e
    obtain ⟨v, h4, e⟩ := bind_inv e
    obtain ⟨v', e2, m2⟩ := traverseM_ok SSame
      (body' := sparseBody I.D (I.D - 1 - (left + 1)) keyAcc (fromSparse I s left))
      (fun x x' i y hxx hy => by
        unfold Dense.sparseBody at hy
        obtain ⟨b, hb, hy⟩ := bind_inv hy
        obtain ⟨k, hk, hy⟩ := bind_inv hy
        obtain ⟨⟨y1, child⟩, hr, hy⟩ := bind_inv hy
        obtain ⟨y1', er, mr⟩ := fromSparse_ok left hxx.st hr
        unfold sparseBody
        rw [hb, bind_ok, hk, bind_ok, er, bind_ok]
        cases child with
        | none =>
          cases hy
          exact ⟨{ x' with w := y1' }, rfl, mr, hxx.mask, hxx.childs⟩
        | some ch =>
          simp only at hy ⊢
          obtain ⟨⟨o, nm⟩, hs, hy⟩ := bind_inv hy
          rw [hxx.mask, hs, bind_ok, hxx.childs]
          by_cases hl : x.childs.length < 64
          · rw [if_pos hl] at hy ⊢
            cases hy
            exact ⟨⟨y1', nm, x.childs ++ [.ptr (.heap ch)]⟩, rfl, mr, rfl, rfl⟩
          · rw [if_neg hl] at hy; cases hy)
      (st' := ⟨{ w with cur := c }, 0, []⟩) h4 ⟨⟨hm.heap, rfl, hm.data, hm.keys⟩, rfl, rfl⟩
    rw [hm.cur, h1, bind_ok]
    simp only at h2 ⊢
    rw [h2, bind_ok, e2, bind_ok, m2.childs]
    by_cases hc : v.childs.isEmpty = true
    · rw [if_pos hc] at e ⊢
      cases e
      exact ⟨v'.w, rfl, m2.st⟩
    · rw [if_neg hc] at e ⊢
      obtain ⟨en, h5, e⟩ := bind_inv e
      cases e
      obtain ⟨z3, e3, g3⟩ := fromParts_ok v.nodeMask v.childs (.ptr en) v'.w.st
      rw [m2.st.heap] at e3 g3
      refine ⟨{ v'.w with st := z3 }, ?_, g3, m2.st.cur, m2.st.data, m2.st.keys⟩
      rw [h5, bind_ok, m2.mask, e3, bind_ok]
      rfl

theorem materialize_ok {I : Impl S C α} {s : S} {t : DT α} (e : Dense.materialize I s = .ok t) :
    ∃ v z, materialize I s = .ok (v, z) ∧ Holds t v z := by
  unfold Dense.materialize at e
  obtain ⟨cur, hc, e⟩ := bind_inv e
  obtain ⟨⟨r, a⟩, hr, e⟩ := bind_inv e
  cases e
  obtain ⟨w, e1, m1⟩ : ∃ w, fromRoot I s ⟨⟨⟨fun _ => none, 0⟩, .stat 0, fun _ => [], 0⟩, cur, [none], [usizeMod - 1]⟩ = .ok (w, a) ∧
      MSame r w := by
    unfold Dense.fromRoot at hr
    unfold fromRoot
    by_cases hx : I.exact = true
    · rw [if_pos hx] at hr ⊢
      exact fromExact_ok _ ⟨rfl, rfl, rfl, rfl⟩ hr
    · rw [if_neg hx] at hr ⊢
      obtain ⟨⟨r1, a1⟩, h1, hr⟩ := bind_inv hr
      obtain ⟨a2, h2, hr⟩ := bind_inv hr
      cases hr
      obtain ⟨w1, e1, m1⟩ := fromSparse_ok (w := ⟨⟨⟨fun _ => none, 0⟩, .stat 0, fun _ => [], 0⟩, cur, [none], [usizeMod - 1]⟩)
        _ ⟨rfl, rfl, rfl, rfl⟩ h1
      refine ⟨w1, ?_, m1⟩
      rw [e1, bind_ok]
      simp only at h2 ⊢
      rw [h2, bind_ok]
      rfl
  refine ⟨⟨w.data, w.keys⟩, { w.st with root := .heap a }, ?_, m1.heap, rfl, m1.data, m1.keys⟩
  unfold materialize
  rw [hc, bind_ok, e1, bind_ok]
  rfl

end

end Hibit.Alias
