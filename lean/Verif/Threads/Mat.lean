import Verif.Threads.Read
import Verif.Bytes.Mat
/-!
# `materialize`, access by access

`src/dense_tree/from.rs` as programs. The source is read through its own programs; the new tree is written to blocks
that the program allocates.
-/
namespace Hibit.Threads
open Hibit Hibit.Dense Hibit.Bytes

/-! ## Model -/

/-- node.rs:240-252 `raw_new`. -/
def rawNew (k : Kind) (cap : Nat) (mask : Word) : Prog Nat := do
  let a ← newBlock (layoutSize k cap)
  putMask (.heap a) mask
  putCap (.heap a) cap
  putLen (.heap a) 0
  return a

/-- node.rs:261-274 `raw_push_within_capacity`. -/
def rawPush (k : Kind) (a : Nat) (value : Cell) : Prog Unit := do
  let len ← getLen (.heap a)
  putChild k (.heap a) len value
  let len ← getLen (.heap a)
  let len ← Prog.lift (if len + 1 < 256 then Except.ok (len + 1) else .error .panic)
  putLen (.heap a) len

/-- node.rs:277-292 `raw_finalize`. -/
def rawFinalize (k : Kind) (a : Nat) (emptyChild : Cell) : Prog Unit := do
  let len ← getLen (.heap a)
  putChild k (.heap a) len emptyChild
  let len ← getLen (.heap a)
  let len ← Prog.lift (if len + 1 < 256 then Except.ok (len + 1) else .error .panic)
  putLen (.heap a) len
  let len ← getLen (.heap a)
  let cap ← getCap (.heap a)
  if len ≤ cap then return () else .err .panic

/-- node.rs:211-237 `from_parts`. The `copy_nonoverlapping` of the children, from an array on the stack, is one store. -/
def fromParts (mask : Word) (childs : List Ptr) (emptyChild : Ptr) : Prog Nat := do
  let a ← newBlock (layoutSize .branch ((childs.length + 1) % 256))
  putMask (.heap a) mask
  putCap (.heap a) ((childs.length + 1) % 256)
  putLen (.heap a) (childs.length % 256)
  wr (.heap a) (childOff .branch 0) (tsize .branch) (childs.flatMap ptrBytes)
  putChild .branch (.heap a) childs.length (.ptr emptyChild)
  return a

/-- The private part of the state of `materialize`: the cursor over the source, and the vectors of the new tree. -/
structure PSt (C α : Type) where
  cur : C
  data : List (Option α)
  keys : List Nat

/-- bit_utils.rs:108-131 `traverse_one_bits`, with a program as body. -/
def traverse {σ : Type} (body : σ → Nat → Prog σ) : Nat → σ → Word → Prog σ
  | 0, _, _ => .err .fuel
  | fuel + 1, st, w =>
    if w == 0 then .ret st
    else do
      let st ← body st (tz w)
      traverse body fuel st (clearLowest w)

section
variable {S C α : Type}

/-- from.rs:40-47, 160-165. -/
def terminalBody (P : PImpl S C α) (s : S) (a keyAcc : Nat) (st : PSt C α) (index : Nat) : Prog (PSt C α) := do
  let data ← P.curDataU st.cur s index
  let key ← Prog.lift (addUsize keyAcc index)
  let _ ← rawPush .term a (.idx (st.data.length % 2 ^ 32))
  return ⟨st.cur, st.data ++ [some data], st.keys ++ [key]⟩

/-- from.rs:28-50 `make_terminal_node`. -/
def makeTerminalNode (P : PImpl S C α) (s : S) (st : PSt C α) (mask : Word) (cap keyAcc : Nat) :
    Prog (PSt C α × Nat) := do
  let a ← rawNew .term cap mask
  let st ← traverse (terminalBody P s a keyAcc) 65 st mask
  let _ ← rawFinalize .term a (.idx 0)
  return (st, a)

/-- from.rs:77-90. -/
def exactBody (D n a keyAcc : Nat) (rec : PSt C α → Nat → Nat → Prog (PSt C α × Nat))
    (st : PSt C α) (index : Nat) : Prog (PSt C α) := do
  let b ← Prog.lift (blockStart D n index)
  let keyAcc ← Prog.lift (addUsize keyAcc b)
  let r ← rec st index keyAcc
  let _ ← rawPush .branch a (.ptr (.heap r.2))
  return r.1

/-- from.rs:53-94 `from_exact_sparse_hierarchy`. -/
def fromExact (P : PImpl S C α) (s : S) : (left : Nat) → PSt C α → (index keyAcc : Nat) → Prog (PSt C α × Nat)
  | 0, st, index, keyAcc => do
    if P.exact = true then
      let r ← P.selectU st.cur s (P.D - 1) index
      let mask ← Prog.lift (getU r.1 0)
      let cap ← Prog.lift (capOf mask)
      makeTerminalNode P s ⟨r.2, st.data, st.keys⟩ mask cap keyAcc
    else .err .panic
  | left + 1, st, index, keyAcc => do
    if P.exact = true then
      let r ← P.selectU st.cur s (P.D - 1 - (left + 1)) index
      let mask ← Prog.lift (getU r.1 0)
      let cap ← Prog.lift (capOf mask)
      let a ← rawNew .branch cap mask
      let st ← traverse (exactBody P.D (P.D - 1 - (left + 1)) a keyAcc (fromExact P s left)) 65
        ⟨r.2, st.data, st.keys⟩ mask
      let e ← Prog.lift (emptyNode (P.D - 1 - (left + 1) + 1) P.D)
      let _ ← rawFinalize .branch a (.ptr e)
      return (st, a)
    else .err .panic

/-- Local variables of from.rs:121-131. -/
structure QSt (C α : Type) where
  st : PSt C α
  nodeMask : Word
  childs : List Ptr

/-- from.rs:124-131. -/
def sparseBody (D n keyAcc : Nat) (rec : PSt C α → Nat → Nat → Prog (PSt C α × Option Nat))
    (v : QSt C α) (index : Nat) : Prog (QSt C α) := do
  let b ← Prog.lift (blockStart D n index)
  let keyAcc ← Prog.lift (addUsize keyAcc b)
  let r ← rec v.st index keyAcc
  match r.2 with
  | some c =>
    let nm ← Prog.lift (setBitUnchecked true v.nodeMask index)
    if v.childs.length < 64 then return ⟨r.1, nm.2, v.childs ++ [.heap c]⟩
    else .err .ub
  | none => return ⟨r.1, v.nodeMask, v.childs⟩

/-- from.rs:97-137 `from_sparse_hierarchy`. -/
def fromSparse (P : PImpl S C α) (s : S) : (left : Nat) → PSt C α → (index keyAcc : Nat) →
    Prog (PSt C α × Option Nat)
  | 0, st, index, keyAcc => do
    let r ← P.selectU st.cur s (P.D - 1) index
    let mask ← Prog.lift (getU r.1 0)
    let cap ← Prog.lift (capOf mask)
    let q ← makeTerminalNode P s ⟨r.2, st.data, st.keys⟩ mask cap keyAcc
    return (q.1, some q.2)
  | left + 1, st, index, keyAcc => do
    let r ← P.selectU st.cur s (P.D - 1 - (left + 1)) index
    let mask ← Prog.lift (getU r.1 0)
    let v ← traverse (sparseBody P.D (P.D - 1 - (left + 1)) keyAcc (fromSparse P s left)) 65
      ⟨⟨r.2, st.data, st.keys⟩, 0, []⟩ mask
    if v.childs.isEmpty then return (v.st, none)
    else
      let e ← Prog.lift (emptyNode (P.D - 1 - (left + 1) + 1) P.D)
      let a ← fromParts v.nodeMask v.childs e
      return (v.st, some a)

/-- from.rs:169-178. -/
def fromRoot (P : PImpl S C α) (s : S) (st : PSt C α) : Prog (PSt C α × Nat) := do
  if P.exact = true then fromExact P s (P.D - 1) st 0 0
  else
    let r ← fromSparse P s (P.D - 1) st 0 0
    let a ← Prog.lift (unwrapU r.2)
    return (r.1, a)

/-- from.rs:153-181, called by hibit_tree.rs:224-229 `materialize`. -/
def materialize (P : PImpl S C α) (s : S) : Prog (Tree α) := do
  let cur ← P.new s
  let r ← fromRoot P s ⟨cur, [none], [usizeMod - 1]⟩
  return ⟨.heap r.2, r.1.data, r.1.keys⟩

end

/-! ## Refinement -/

/-- The addresses of the blocks `sh`. -/
def dom (sh : Mem) (x : Nat) : Bool := (sh x).isSome

/-- The memory contains the blocks `sh`. -/
def Has (sh : Mem) (h : BHeap) : Prop := Within sh h ∧ Finite h.block

/-- Running alone from a memory `h` with the blocks `sh`, the program `p` ends as the function `x` does, if that
succeeds, without writing to the blocks `sh`. -/
def RefZ {β X : Type} (sh : Mem) (p : Prog β) (h : BHeap) (x : R X) (φ : X → β × BHeap) : Prop :=
  Has sh h → ∀ c, x = .ok c → (p.guard (dom sh)).alone h = .ok (φ c) ∧ Has sh (φ c).2

section
variable {β γ X Y : Type} {h : BHeap} {sh : Mem}

theorem RefZ.ok {b : β} {c : X} {φ : X → β × BHeap} (e : φ c = (b, h)) : RefZ sh (.ret b) h (.ok c) φ :=
  fun H c' e' => by cases e'; rw [e]; exact ⟨rfl, H⟩

theorem RefZ.err {p : Prog β} {e : Err} {φ : X → β × BHeap} : RefZ sh p h (.error e) φ := fun _ c e' => by cases e'

theorem RefZ.bind {p : Prog β} {f : β → Prog γ} {x : R X} {g : X → R Y} {φ : X → β × BHeap}
    {ψ : Y → γ × BHeap} (h1 : RefZ sh p h x φ)
    (h2 : ∀ c, x = .ok c → Has sh h → RefZ sh (f (φ c).1) (φ c).2 (g c) ψ) : RefZ sh (p >>= f) h (x >>= g) ψ := by
  intro H d e
  obtain ⟨c, e1, e2⟩ := bind_inv e
  obtain ⟨a1, H1⟩ := h1 H c e1
  rw [guard_bind, alone_bind, a1]
  exact h2 c e1 H H1 d e2

theorem RefZ.lift {x : R X} {f : X → Prog γ} {g : X → R Y} {ψ : Y → γ × BHeap}
    (h2 : ∀ c, x = .ok c → RefZ sh (f c) h (g c) ψ) : RefZ sh (Prog.lift x >>= f) h (x >>= g) ψ := by
  intro H d e
  obtain ⟨c, e1, e2⟩ := bind_inv e
  subst e1
  exact h2 c rfl H d e2

theorem RefZ.ite {c : Prop} [Decidable c] {p q : Prog β} {x y : R X} {φ : X → β × BHeap}
    (h1 : c → RefZ sh p h x φ) (h2 : ¬ c → RefZ sh q h y φ) :
    RefZ sh (if c then p else q) h (if c then x else y) φ := by
  by_cases hc : c
  · rw [if_pos hc, if_pos hc]; exact h1 hc
  · rw [if_neg hc, if_neg hc]; exact h2 hc

theorem RefZ.finds {p : Prog X} {x : R X} (hp : Finds p sh x) : RefZ sh p h x (fun b => (b, h)) :=
  fun H c e => ⟨hp c e h H.1 _, H⟩

/-- A program that writes to a block that is not borrowed. -/
theorem RefZ.own {p : Prog β} {x : R X} {φ : X → β × BHeap} (hp : Ref p h x φ) (hg : p.guard (dom sh) = p)
    (hh : ∀ c, x = .ok c → Has sh h → Has sh (φ c).2) : RefZ sh p h x φ :=
  fun H c e => ⟨by rw [hg]; exact hp c e, hh c e H⟩

theorem Has.put {a : Nat} (H : Has sh h) (ha : sh a = none) (b : Block) : Has sh (h.put a b) := by
  refine ⟨fun x b' hx => ?_, finite_upd H.2 a _⟩
  rw [put_block, upd_other _ _ (by rintro rfl; rw [ha] at hx; cases hx)]
  exact H.1 x b' hx

/-- A new block is not one of the borrowed ones. -/
theorem Has.fresh (H : Has sh h) (b : Block) : sh (h.alloc b).2 = none := by
  have hf := h.allocator.free h.calls h.block b.length H.2
  show sh (h.allocator.pick h.calls h.block b.length) = none
  cases e : sh (h.allocator.pick h.calls h.block b.length) with
  | none => rfl
  | some b' => rw [H.1 _ _ e] at hf; cases hf

theorem Has.alloc (H : Has sh h) (b : Block) : Has sh (h.alloc b).1 := by
  have hn := H.fresh b
  refine ⟨fun x b' hx => ?_, finite_upd H.2 _ _⟩
  have : x ≠ (h.alloc b).2 := by rintro rfl; rw [hn] at hx; cases hx
  show upd h.block (h.alloc b).2 (some b) x = _
  rw [upd_other _ _ this]
  exact H.1 x b' hx

theorem dom_none {a : Nat} (ha : sh a = none) : dom sh a = false := by unfold dom; rw [ha]; rfl

theorem guard_wr {a : Nat} (ha : sh a = none) (off align : Nat) (v : List MByte) :
    (wr (.heap a) off align v).guard (dom sh) = wr (.heap a) off align v := by
  have hs : (Act.store (.heap a) off align v).spares (dom sh) = true := by
    show (!dom sh a) = true
    rw [dom_none ha]; rfl
  exact if_pos hs

theorem guard_putChild {a : Nat} (ha : sh a = none) (k : Kind) (d : Nat) (c : Cell) :
    (putChild k (.heap a) d c).guard (dom sh) = putChild k (.heap a) d c := by
  unfold putChild
  rw [guard_bind, guard_lift]
  simp only [guard_wr ha]

theorem getLen_loads (p : Ptr) : Loads (getLen p) := Loads.bind (fun _ => Loads.lift) (Loads.rd _ _ _ _)
theorem getCap_loads (p : Ptr) : Loads (getCap p) := Loads.bind (fun _ => Loads.lift) (Loads.rd _ _ _ _)

/-- The address of a new block does not depend on what is written. -/
theorem alloc_put (h : BHeap) {n : Nat} {b : Block} (hb : b.length = n) :
    h.alloc b = ((h.alloc (fresh n)).1.put (h.alloc (fresh n)).2 b, (h.alloc (fresh n)).2) := by
  have hf : (fresh n).length = n := by simp [fresh]
  simp only [BHeap.alloc, BHeap.put, hb, hf]
  congr 2
  funext x
  by_cases e : x = h.allocator.pick h.calls h.block n <;> simp only [e, if_true, if_false]

theorem alloc_self (h : BHeap) (n : Nat) :
    (h.alloc (fresh n)).1.put (h.alloc (fresh n)).2 (fresh n) = (h.alloc (fresh n)).1 :=
  put_self (by simp [BHeap.alloc])

/-- A program that allocates a block and fills it. -/
theorem RefZ.new {n : Nat} {f : Nat → Prog Nat} {x : R (BHeap × Nat)} {fill : Block → R Block}
    (hx : x = fill (fresh n) >>= fun b => .ok (h.alloc b))
    (hl : ∀ b, fill (fresh n) = .ok b → b.length = n)
    (hg : ∀ a, sh a = none → (f a).guard (dom sh) = f a)
    (hf : ∀ (h1 : BHeap) (a : Nat) (b : Block), Ref (f a) (h1.put a b) (fill b) (fun b' => (a, h1.put a b'))) :
    RefZ sh (newBlock n >>= f) h x (fun r => (r.2, r.1)) := by
  intro H c e
  subst hx
  obtain ⟨b, e1, e2⟩ := bind_inv e
  cases e2
  have hn := H.fresh (Bytes.fresh n)
  rw [alloc_put h (hl b e1)]
  refine ⟨?_, (H.alloc _).put hn b⟩
  rw [guard_bind, alone_bind]
  have : ((newBlock n).guard (dom sh)).alone h = .ok ((h.alloc (fresh n)).2, (h.alloc (fresh n)).1) :=
    step_alone (a := Act.alloc n) rfl
  rw [this]
  show ((f (h.alloc (fresh n)).2).guard (dom sh)).alone _ = _
  rw [hg _ hn]
  have := hf (h.alloc (fresh n)).1 (h.alloc (fresh n)).2 (fresh n) b e1
  rwa [alloc_self] at this

theorem rawNew_ref (k : Kind) (cap : Nat) (mask : Word) :
    RefZ sh (rawNew k cap mask) h (Bytes.rawNew h k cap mask) (fun r => (r.2, r.1)) := by
  refine RefZ.new (fill := fun b => do
    let b ← Bytes.putMask b mask
    let b ← Bytes.putCap b cap
    Bytes.putLen b 0) ?_ (fun b e => ?_) (fun a ha => ?_) fun h1 a b => ?_
  · unfold Bytes.rawNew
    simp only [bind_assoc_R]
    rfl
  · obtain ⟨b1, e1, e⟩ := bind_inv e
    obtain ⟨b2, e2, e⟩ := bind_inv e
    rw [store_len e, store_len e2, store_len e1]
    simp [fresh]
  · simp only [guard_bind, putMask, putCap, putLen, guard_wr ha]
    rfl
  · refine Ref.bind (wr_ref h1 a b _ _ _) fun b1 _ => Ref.bind (wr_ref h1 a b1 _ _ _) fun b2 _ => ?_
    intro b3 e3
    have := wr_ref h1 a b2 lenOff 1 (leBytes 1 0) b3 e3
    show (putLen (.heap a) 0 >>= _).alone _ = _
    rw [alone_bind]
    unfold putLen
    rw [this]
    rfl

theorem fromParts_ref (mask : Word) (childs : List Ptr) (e : Ptr) :
    RefZ sh (fromParts mask childs e) h (Bytes.fromParts h mask childs e) (fun r => (r.2, r.1)) := by
  refine RefZ.new (fill := fun b => do
    let b ← Bytes.putMask b mask
    let b ← Bytes.putCap b ((childs.length + 1) % 256)
    let b ← Bytes.putLen b (childs.length % 256)
    let b ← Bytes.store b (childOff .branch 0) (tsize .branch) (childs.flatMap ptrBytes)
    Bytes.putChild .branch b childs.length (.ptr e)) ?_ (fun b e => ?_) (fun a ha => ?_) fun h1 a b => ?_
  · unfold Bytes.fromParts
    simp only [bind_assoc_R]
    rfl
  · obtain ⟨b1, e1, e⟩ := bind_inv e
    obtain ⟨b2, e2, e⟩ := bind_inv e
    obtain ⟨b3, e3, e⟩ := bind_inv e
    obtain ⟨b4, e4, e⟩ := bind_inv e
    obtain ⟨v, -, e⟩ := bind_inv e
    rw [store_len e, store_len e4, store_len e3, store_len e2, store_len e1]
    simp [fresh]
  · simp only [guard_bind, putMask, putCap, putLen, guard_wr ha, guard_putChild ha]
    rfl
  · refine Ref.bind (wr_ref h1 a b _ _ _) fun b1 _ => Ref.bind (wr_ref h1 a b1 _ _ _) fun b2 _ => ?_
    refine Ref.bind (wr_ref h1 a b2 _ _ _) fun b3 _ => Ref.bind (wr_ref h1 a b3 _ _ _) fun b4 _ => ?_
    intro b5 e5
    have := putChild_ref h1 .branch a b4 childs.length (.ptr e) b5 e5
    rw [alone_bind, this]
    rfl

theorem rawPush_ref {a : Nat} (ha : sh a = none) (k : Kind) (v : Cell) :
    RefZ sh (rawPush k a v) h (Bytes.rawPush h k a v) (fun h' => ((), h')) := by
  refine RefZ.own ?_ ?_ fun h' e H => ?_
  · refine Ref.skip fun ab eab => ?_
    obtain ⟨a', b⟩ := ab
    obtain ⟨e, hb⟩ := bytesMut_inv eab
    cases e
    rw [← put_self hb]
    simp only [put_put]
    refine Ref.bind (getLen_ref (look_put h a b)) fun len _ => ?_
    refine Ref.bind (putChild_ref h k a b len v) fun b1 _ => ?_
    refine Ref.bind (getLen_ref (look_put h a b1)) fun len _ => ?_
    refine Ref.check fun _ => ?_
    intro h2 e
    obtain ⟨b2, e1, e⟩ := bind_inv e
    cases e
    exact wr_ref h a b1 _ _ _ b2 e1
  · unfold rawPush
    simp only [guard_bind, (getLen_loads _).guard, guard_putChild ha, guard_lift, putLen, guard_wr ha]
  · obtain ⟨⟨a', b⟩, eab, e⟩ := bind_inv e
    obtain ⟨ep, hb⟩ := bytesMut_inv eab
    cases ep
    obtain ⟨len, -, e⟩ := bind_inv e
    obtain ⟨b1, -, e⟩ := bind_inv e
    obtain ⟨len, -, e⟩ := bind_inv e
    by_cases hc : len + 1 < 256
    · simp only [if_pos hc] at e
      obtain ⟨len, -, e⟩ := bind_inv e
      obtain ⟨b2, -, e⟩ := bind_inv e
      cases e
      exact H.put ha _
    · simp only [if_neg hc] at e
      cases e

theorem rawFinalize_ref {a : Nat} (ha : sh a = none) (k : Kind) (v : Cell) :
    RefZ sh (rawFinalize k a v) h (Bytes.rawFinalize h k a v) (fun h' => ((), h')) := by
  refine RefZ.own ?_ ?_ fun h' e H => ?_
  · refine Ref.skip fun ab eab => ?_
    obtain ⟨a', b⟩ := ab
    obtain ⟨e, hb⟩ := bytesMut_inv eab
    cases e
    rw [← put_self hb]
    simp only [put_put]
    refine Ref.bind (getLen_ref (look_put h a b)) fun len _ => ?_
    refine Ref.bind (putChild_ref h k a b len v) fun b1 _ => ?_
    refine Ref.bind (getLen_ref (look_put h a b1)) fun len _ => ?_
    refine Ref.check fun _ => ?_
    refine Ref.bind (wr_ref h a b1 _ _ _) fun b2 _ => ?_
    refine Ref.bind (getLen_ref (look_put h a b2)) fun len _ => ?_
    refine Ref.bind (getCap_ref (look_put h a b2)) fun cap _ => ?_
    exact Ref.ite (fun _ => Ref.ok rfl) fun _ => Ref.err
  · unfold rawFinalize
    simp only [guard_bind, (getLen_loads _).guard, (getCap_loads _).guard, guard_putChild ha, guard_lift, putLen,
      guard_wr ha]
    congr 1
    funext len
    congr 1
    funext _
    congr 1
    funext len
    congr 1
    funext len
    congr 1
    funext _
    congr 1
    funext len
    congr 1
    funext cap
    by_cases hc : len ≤ cap
    · simp only [if_pos hc]; rfl
    · simp only [if_neg hc]; rfl
  · obtain ⟨⟨a', b⟩, eab, e⟩ := bind_inv e
    obtain ⟨ep, hb⟩ := bytesMut_inv eab
    cases ep
    obtain ⟨len, -, e⟩ := bind_inv e
    obtain ⟨b1, -, e⟩ := bind_inv e
    obtain ⟨len, -, e⟩ := bind_inv e
    by_cases hc : len + 1 < 256
    · simp only [if_pos hc] at e
      obtain ⟨len, -, e⟩ := bind_inv e
      obtain ⟨b2, -, e⟩ := bind_inv e
      obtain ⟨len, -, e⟩ := bind_inv e
      obtain ⟨cap, -, e⟩ := bind_inv e
      by_cases hc : len ≤ cap
      · rw [if_pos hc] at e; cases e; exact H.put ha _
      · rw [if_neg hc] at e; cases e
    · simp only [if_neg hc] at e
      cases e

/-- The traversal of a word. -/
theorem traverse_ref {σ τ : Type} {body : σ → Nat → R σ} {bodyP : τ → Nat → Prog τ} {pr : σ → τ} {hp : σ → BHeap}
    (hb : ∀ st i, RefZ sh (bodyP (pr st) i) (hp st) (body st i) (fun st' => (pr st', hp st')))
    (w : Word) (st : σ) :
    RefZ sh (traverse bodyP 65 (pr st) w) (hp st) (traverseM body st [w]) (fun st' => (pr st', hp st')) := by
  rw [traverseM_eq]
  have key : ∀ (fuel : Nat) (w : Word) (st : σ), (wones w).length < fuel →
      RefZ sh (traverse bodyP fuel (pr st) w) (hp st) ((wones w).foldlM body st) (fun st' => (pr st', hp st')) := by
    intro fuel
    induction fuel with
    | zero => intro w st hl; omega
    | succ fuel ih =>
      intro w st hl
      unfold traverse
      by_cases h0 : w = 0
      · subst h0
        exact RefZ.ok rfl
      · have e := wones_cons h0
        rw [if_neg (by simpa using h0), e, List.foldlM_cons]
        rw [e, List.length_cons] at hl
        exact RefZ.bind (hb st _) fun st' _ _ => ih _ st' (by omega)
  have e : Mask.ones [w] = wones w := by rw [ones_cons]; simp [Mask.ones]
  rw [e]
  refine key 65 w st ?_
  have := List.length_filter_le (fun i => w.getLsbD i) (List.range 64)
  rw [List.length_range] at this
  show ((List.range 64).filter _).length < 65
  omega

end

/-! ## `materialize` -/

/-- The private part of a state. -/
def priv {C α : Type} (st : Bytes.MSt C α) : PSt C α := ⟨st.cur, st.data, st.keys⟩

/-- The private part of a state. -/
def privQ {C α : Type} (v : Bytes.SSt C α) : QSt C α := ⟨priv v.st, v.nodeMask, v.childs⟩

section
variable {S' S C α : Type} {P : PImpl S' C α} {I : Impl S C α} {s' : S'} {s : S} {sh : Mem}

theorem terminalBody_ref (h0 : Agree P I s' s sh) {a : Nat} (ha : sh a = none) (keyAcc : Nat) (st : Bytes.MSt C α)
    (i : Nat) : RefZ sh (terminalBody P s' a keyAcc (priv st) i) st.heap (Bytes.terminalBody I s a keyAcc st i)
      (fun st' => (priv st', st'.heap)) := by
  refine RefZ.bind (RefZ.finds (h0.curDataU _ _)) fun d _ _ => RefZ.lift fun key _ => ?_
  exact RefZ.bind (rawPush_ref ha _ _) fun h' _ _ => RefZ.ok rfl

/-- The address of a new node. -/
theorem rawNew_addr {h : BHeap} {k : Kind} {cap : Nat} {mask : Word} {r : BHeap × Nat}
    (e : Bytes.rawNew h k cap mask = .ok r) (H : Has sh h) : sh r.2 = none := by
  obtain ⟨b1, -, e⟩ := bind_inv e
  obtain ⟨b2, -, e⟩ := bind_inv e
  obtain ⟨b3, -, e⟩ := bind_inv e
  cases e
  exact H.fresh b3

theorem makeTerminalNode_ref (h0 : Agree P I s' s sh) (st : Bytes.MSt C α) (mask : Word) (cap keyAcc : Nat) :
    RefZ sh (makeTerminalNode P s' (priv st) mask cap keyAcc) st.heap
      (Bytes.makeTerminalNode I s st mask cap keyAcc) (fun r => ((priv r.1, r.2), r.1.heap)) := by
  refine RefZ.bind (rawNew_ref _ _ _) fun r e H => ?_
  have ha := rawNew_addr e H
  refine RefZ.bind (traverse_ref (pr := priv) (hp := Bytes.MSt.heap) (terminalBody_ref h0 ha keyAcc) mask
    ⟨r.1, st.cur, st.data, st.keys⟩) fun st1 _ _ => ?_
  exact RefZ.bind (rawFinalize_ref ha _ _) fun h' _ _ => RefZ.ok rfl

theorem exactBody_ref {D n a keyAcc : Nat} (ha : sh a = none) {rec : Bytes.MSt C α → Nat → Nat → R (Bytes.MSt C α × Nat)}
    {recP : PSt C α → Nat → Nat → Prog (PSt C α × Nat)}
    (hr : ∀ st i k, RefZ sh (recP (priv st) i k) st.heap (rec st i k) (fun r => ((priv r.1, r.2), r.1.heap)))
    (st : Bytes.MSt C α) (i : Nat) : RefZ sh (exactBody D n a keyAcc recP (priv st) i) st.heap
      (Bytes.exactBody D n a keyAcc rec st i) (fun st' => (priv st', st'.heap)) := by
  refine RefZ.lift fun b _ => RefZ.lift fun k _ => RefZ.bind (hr st i k) fun r _ _ => ?_
  exact RefZ.bind (rawPush_ref ha _ _) fun h' _ _ => RefZ.ok rfl

theorem fromExact_ref (h0 : Agree P I s' s sh) : ∀ (left : Nat) (st : Bytes.MSt C α) (i k : Nat),
    RefZ sh (fromExact P s' left (priv st) i k) st.heap (Bytes.fromExact I s left st i k)
      (fun r => ((priv r.1, r.2), r.1.heap))
  | 0, st, i, k => by
    unfold fromExact Bytes.fromExact
    rw [h0.exact, h0.D]
    refine RefZ.ite (fun _ => ?_) fun _ => RefZ.err
    refine RefZ.bind (RefZ.finds (h0.selectU _ _ _)) fun r _ _ => RefZ.lift fun mask _ => RefZ.lift fun cap _ => ?_
    exact makeTerminalNode_ref h0 ⟨st.heap, r.2, st.data, st.keys⟩ mask cap k
  | left + 1, st, i, k => by
    unfold fromExact Bytes.fromExact
    rw [h0.exact, h0.D]
    refine RefZ.ite (fun _ => ?_) fun _ => RefZ.err
    refine RefZ.bind (RefZ.finds (h0.selectU _ _ _)) fun r _ _ => RefZ.lift fun mask _ => RefZ.lift fun cap _ => ?_
    refine RefZ.bind (rawNew_ref _ _ _) fun q e H => ?_
    have ha := rawNew_addr e H
    refine RefZ.bind (traverse_ref (pr := priv) (hp := Bytes.MSt.heap) (exactBody_ref ha (fromExact_ref h0 left)) mask
      ⟨q.1, r.2, st.data, st.keys⟩) fun st1 _ _ => ?_
    refine RefZ.lift fun em _ => ?_
    exact RefZ.bind (rawFinalize_ref ha _ _) fun h' _ _ => RefZ.ok rfl

theorem sparseBody_ref {D n keyAcc : Nat} {rec : Bytes.MSt C α → Nat → Nat → R (Bytes.MSt C α × Option Nat)}
    {recP : PSt C α → Nat → Nat → Prog (PSt C α × Option Nat)}
    (hr : ∀ st i k, RefZ sh (recP (priv st) i k) st.heap (rec st i k) (fun r => ((priv r.1, r.2), r.1.heap)))
    (v : Bytes.SSt C α) (i : Nat) : RefZ sh (sparseBody D n keyAcc recP (privQ v) i) v.st.heap
      (Bytes.sparseBody D n keyAcc rec v i) (fun v' => (privQ v', v'.st.heap)) := by
  refine RefZ.lift fun b _ => RefZ.lift fun k _ => RefZ.bind (hr v.st i k) fun r _ _ => ?_
  obtain ⟨st1, o⟩ := r
  cases o with
  | none => exact RefZ.ok rfl
  | some c => exact RefZ.lift fun nm _ => RefZ.ite (fun _ => RefZ.ok rfl) fun _ => RefZ.err

theorem fromSparse_ref (h0 : Agree P I s' s sh) : ∀ (left : Nat) (st : Bytes.MSt C α) (i k : Nat),
    RefZ sh (fromSparse P s' left (priv st) i k) st.heap (Bytes.fromSparse I s left st i k)
      (fun r => ((priv r.1, r.2), r.1.heap))
  | 0, st, i, k => by
    unfold fromSparse Bytes.fromSparse
    rw [h0.D]
    refine RefZ.bind (RefZ.finds (h0.selectU _ _ _)) fun r _ _ => RefZ.lift fun mask _ => RefZ.lift fun cap _ => ?_
    exact RefZ.bind (makeTerminalNode_ref h0 ⟨st.heap, r.2, st.data, st.keys⟩ mask cap k) fun q _ _ => RefZ.ok rfl
  | left + 1, st, i, k => by
    unfold fromSparse Bytes.fromSparse
    rw [h0.D]
    refine RefZ.bind (RefZ.finds (h0.selectU _ _ _)) fun r _ _ => RefZ.lift fun mask _ => ?_
    refine RefZ.bind (traverse_ref (pr := privQ) (hp := fun v : Bytes.SSt C α => v.st.heap)
      (sparseBody_ref (fromSparse_ref h0 left)) mask ⟨⟨st.heap, r.2, st.data, st.keys⟩, 0, []⟩) fun v _ _ => ?_
    refine RefZ.ite (fun _ => RefZ.ok rfl) fun _ => ?_
    exact RefZ.lift fun em _ => RefZ.bind (fromParts_ref _ _ _) fun q _ _ => RefZ.ok rfl

theorem fromRoot_ref (h0 : Agree P I s' s sh) (st : Bytes.MSt C α) :
    RefZ sh (fromRoot P s' (priv st)) st.heap (Bytes.fromRoot I s st) (fun r => ((priv r.1, r.2), r.1.heap)) := by
  unfold fromRoot Bytes.fromRoot
  rw [h0.exact, h0.D]
  refine RefZ.ite (fun _ => fromExact_ref h0 _ _ _ _) fun _ => ?_
  refine RefZ.bind (fromSparse_ref h0 _ _ _ _) fun r _ _ => ?_
  exact RefZ.lift fun a _ => RefZ.ok rfl

theorem materialize_ref (h0 : Agree P I s' s sh) (h : BHeap) :
    RefZ sh (materialize P s') h (Bytes.materialize I s h) (fun bt => (ofBT bt, bt.heap)) := by
  refine RefZ.bind (RefZ.finds h0.new) fun c _ _ => ?_
  exact RefZ.bind (fromRoot_ref h0 ⟨h, c, [none], [usizeMod - 1]⟩) fun r _ _ => RefZ.ok rfl

end
end Hibit.Threads
