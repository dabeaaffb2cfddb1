import Verif.Bytes.Tree
/-!
# Threads: programs that access a shared memory one step at a time

An operation on a DenseTree is here a program that makes one memory access after the other; between two accesses
other threads may run. What a thread computes between two accesses (registers, stack, its own vectors) is
private.
-/
namespace Hibit.Threads
open Hibit Hibit.Dense Hibit.Bytes

/-- One access to memory. -/
inductive Act where
  /-- read `size` bytes at offset `off` of the block at `p` -/
  | load (p : Ptr) (off size align : Nat)
  /-- write `v` at offset `off` of the block at `p` -/
  | store (p : Ptr) (off align : Nat) (v : List MByte)
  /-- `ptr::copy` inside the block at `p` -/
  | move (p : Ptr) (src dst size align : Nat)
  /-- `alloc` of a block of `size` bytes -/
  | alloc (size : Nat)
  /-- `dealloc` with the layout size `size` -/
  | free (p : Ptr) (size : Nat)
  /-- `realloc` from the layout size `size` -/
  | realloc (p : Ptr) (size newSize : Nat)

/-- What the thread gets back: the bytes read, or the address of the block. -/
def Act.Ans : Act → Type
  | .load .. => List MByte
  | .store .. => Unit
  | .move .. => Unit
  | .alloc _ => Nat
  | .free .. => Unit
  | .realloc .. => Nat

/-- The block at `p`, for reading: on the heap or static. -/
def look (m : Mem) : Ptr → Option Block
  | .heap a => m a
  | .stat i => statBlock i

/-- The effect of an access on the memory of the program. Writing to a static, and accesses that
are misaligned or outside a live block, are undefined behaviour. -/
def Act.exec : (a : Act) → BHeap → R (a.Ans × BHeap)
  | .load p off size align, h => do
    let b ← unwrapU (look h.block p)
    let v ← Bytes.load b off size align
    return (v, h)
  | .store (.heap a) off align v, h => do
    let b ← unwrapU (h.block a)
    let b ← Bytes.store b off align v
    return ((), h.put a b)
  | .store (.stat _) _ _ _, _ => .error .ub
  | .move (.heap a) src dst size align, h => do
    let b ← unwrapU (h.block a)
    let b ← Bytes.memmove b src dst size align
    return ((), h.put a b)
  | .move (.stat _) _ _ _ _, _ => .error .ub
  | .alloc size, h => let r := h.alloc (fresh size); .ok (r.2, r.1)
  | .free (.heap a) size, h => do
    let h ← h.dealloc a size
    return ((), h)
  | .free (.stat _) _, _ => .error .ub
  | .realloc (.heap a) size newSize, h => do
    let r ← h.realloc a size newSize
    return (r.2.1, r.1)
  | .realloc (.stat _) _ _, _ => .error .ub

/-- A program: it has returned, it has failed, or it makes an access and goes on with the answer. -/
inductive Prog (β : Type) where
  | ret (b : β)
  | err (e : Err)
  | act (a : Act) (k : a.Ans → Prog β)

/-- Sequencing. -/
def Prog.bind {β γ : Type} : Prog β → (β → Prog γ) → Prog γ
  | .ret b, f => f b
  | .err e, _ => .err e
  | .act a k, f => .act a (fun r => (k r).bind f)

instance : Monad Prog where
  pure := .ret
  bind := Prog.bind

/-- A private computation. -/
def Prog.lift {β : Type} : R β → Prog β
  | .ok b => .ret b
  | .error e => .err e

/-- A single access. -/
def Prog.step (a : Act) : Prog a.Ans := .act a .ret

/-- The program running alone. -/
def Prog.alone {β : Type} : Prog β → BHeap → R (β × BHeap)
  | .ret b, h => .ok (b, h)
  | .err e, _ => .error e
  | .act a k, h => do
    let r ← a.exec h
    (k r.1).alone r.2

section
variable {β γ : Type}

@[simp] theorem pure_eq (b : β) : (pure b : Prog β) = .ret b := rfl
@[simp] theorem ret_bind (b : β) (f : β → Prog γ) : (Prog.ret b >>= f) = f b := rfl
@[simp] theorem err_bind (e : Err) (f : β → Prog γ) : (Prog.err e >>= f) = .err e := rfl
@[simp] theorem act_bind (a : Act) (k : a.Ans → Prog β) (f : β → Prog γ) :
    (Prog.act a k >>= f) = .act a (fun r => k r >>= f) := rfl
@[simp] theorem lift_ok (b : β) : Prog.lift (.ok b : R β) = .ret b := rfl
@[simp] theorem alone_ret (b : β) (h : BHeap) : (Prog.ret b).alone h = .ok (b, h) := rfl

theorem alone_bind (p : Prog β) (f : β → Prog γ) (h : BHeap) :
    (p >>= f).alone h = p.alone h >>= fun r => (f r.1).alone r.2 := by
  induction p generalizing h with
  | ret b => rfl
  | err e => rfl
  | act a k ih =>
    show (a.exec h >>= fun r => ((k r.1) >>= f).alone r.2) = _
    simp only [ih]
    show _ = ((a.exec h >>= fun r => (k r.1).alone r.2) >>= _)
    cases a.exec h <;> rfl

end

/-! ## A thread and its own memory -/

/-- What the access does to a memory `m` that consists of the thread's own blocks; a new block may
come at any address that is not in use. -/
def Act.Own : (a : Act) → Mem → a.Ans → Mem → Prop
  | .load p off size align, m, v, m' => ∃ b, look m p = some b ∧ Bytes.load b off size align = .ok v ∧ m' = m
  | .store p off align v, m, _, m' => ∃ a b b', p = .heap a ∧ m a = some b ∧
      Bytes.store b off align v = .ok b' ∧ m' = upd m a (some b')
  | .move p src dst size align, m, _, m' => ∃ a b b', p = .heap a ∧ m a = some b ∧
      Bytes.memmove b src dst size align = .ok b' ∧ m' = upd m a (some b')
  | .alloc size, m, x, m' => m x = none ∧ m' = upd m x (some (fresh size))
  | .free p size, m, _, m' => ∃ a b, p = .heap a ∧ m a = some b ∧ b.length = size ∧ m' = upd m a none
  | .realloc p size newSize, m, x, m' => ∃ a b, p = .heap a ∧ m a = some b ∧ b.length = size ∧
      (x = a ∨ m x = none) ∧
      m' = upd (upd m a none) x (some (b.take newSize ++ fresh (newSize - b.length)))

/-- The access is possible with the thread's own blocks. -/
def Act.Can : Act → Mem → Prop
  | .load p off size align, m => ∃ b v, look m p = some b ∧ Bytes.load b off size align = .ok v
  | .store p off align v, m => ∃ a b b', p = .heap a ∧ m a = some b ∧ Bytes.store b off align v = .ok b'
  | .move p src dst size align, m => ∃ a b b', p = .heap a ∧ m a = some b ∧
      Bytes.memmove b src dst size align = .ok b'
  | .alloc _, _ => True
  | .free p size, m => ∃ a b, p = .heap a ∧ m a = some b ∧ b.length = size
  | .realloc p size _, m => ∃ a b, p = .heap a ∧ m a = some b ∧ b.length = size

/-- The program needs nothing but its own blocks `m`, never fails, and reaches `Q`, wherever its new blocks are
put. -/
def Safe {β : Type} : Prog β → Mem → (β → Mem → Prop) → Prop
  | .ret b, m, Q => Q b m
  | .err _, _, _ => False
  | .act a k, m, Q => a.Can m ∧ ∀ r m', a.Own m r m' → Safe (k r) m' Q

theorem upd_same {β : Type} (m : Nat → β) (x : Nat) (v : β) : upd m x v x = v := by simp [upd]
theorem upd_other {β : Type} (m : Nat → β) {x y : Nat} (v : β) (h : y ≠ x) : upd m x v y = m y := by
  simp [upd, h]

theorem put_block (h : BHeap) (a : Nat) (b : Block) : (h.put a b).block = upd h.block a (some b) := rfl

/-- Only the decisions still to come matter. -/
theorem alone_alloc {β : Type} (p : Prog β) : ∀ (m : Mem) (c c' : Nat) (A A' : Allocator),
    (∀ j m s, A'.pick (c' + j) m s = A.pick (c + j) m s) → ∀ b h', p.alone ⟨m, c, A⟩ = .ok (b, h') →
    ∃ h2, p.alone ⟨m, c', A'⟩ = .ok (b, h2) ∧ h2.block = h'.block := by
  induction p with
  | ret b =>
    intro m c c' A A' hA b h' e
    cases e
    exact ⟨_, rfl, rfl⟩
  | err e => intro m c c' A A' hA b h' h; cases h
  | act a k ih =>
    intro m c c' A A' hA b h' e
    have key : ∀ r : a.Ans × BHeap, a.exec ⟨m, c, A⟩ = .ok r → ∃ d, ∃ m2 : Mem,
        r.2 = ⟨m2, c + d, A⟩ ∧ a.exec ⟨m, c', A'⟩ = .ok (r.1, ⟨m2, c' + d, A'⟩) := by
      intro r hr
      cases a with
      | load p off size align =>
        obtain ⟨bl, e1, e2⟩ := bind_inv hr
        obtain ⟨v, e3, e4⟩ := bind_inv e2
        cases e4
        refine ⟨0, m, rfl, ?_⟩
        simp only [Act.exec] at e1 ⊢
        rw [e1]
        simp only [bind_ok, e3]
        rfl
      | store p off align v =>
        cases p with
        | stat i => cases hr
        | heap a =>
          obtain ⟨bl, e1, e2⟩ := bind_inv hr
          obtain ⟨v', e3, e4⟩ := bind_inv e2
          cases e4
          refine ⟨0, upd m a (some v'), rfl, ?_⟩
          simp only [Act.exec] at e1 ⊢
          rw [e1]
          simp only [bind_ok, e3]
          rfl
      | move p src dst size align =>
        cases p with
        | stat i => cases hr
        | heap a =>
          obtain ⟨bl, e1, e2⟩ := bind_inv hr
          obtain ⟨v', e3, e4⟩ := bind_inv e2
          cases e4
          refine ⟨0, upd m a (some v'), rfl, ?_⟩
          simp only [Act.exec] at e1 ⊢
          rw [e1]
          simp only [bind_ok, e3]
          rfl
      | alloc size =>
        cases hr
        refine ⟨1, _, rfl, ?_⟩
        have := hA 0 m (fresh size).length
        simp only [Nat.add_zero] at this
        simp only [Act.exec, BHeap.alloc, this]
      | free p size =>
        cases p with
        | stat i => cases hr
        | heap a =>
          obtain ⟨h1, e1, e2⟩ := bind_inv hr
          cases e2
          obtain ⟨bl, e3, e4⟩ := bind_inv e1
          by_cases hl : bl.length = size
          · rw [if_pos hl] at e4
            cases e4
            refine ⟨0, upd m a none, rfl, ?_⟩
            simp only [Act.exec, BHeap.dealloc] at e3 ⊢
            rw [e3]
            simp only [bind_ok, if_pos hl]
            rfl
          · rw [if_neg hl] at e4; cases e4
      | realloc p size newSize =>
        cases p with
        | stat i => cases hr
        | heap a =>
          obtain ⟨h1, e1, e2⟩ := bind_inv hr
          cases e2
          obtain ⟨bl, e3, e4⟩ := bind_inv e1
          obtain ⟨h2, e5, e6⟩ := bind_inv e4
          cases e6
          obtain ⟨bl2, e7, e8⟩ := bind_inv e5
          by_cases hl : bl2.length = size
          · rw [if_pos hl] at e8
            cases e8
            have := hA 0 (fun x => if x = a then none else m x)
              (bl.take newSize ++ fresh (newSize - bl.length)).length
            simp only [Nat.add_zero] at this
            refine ⟨1, _, rfl, ?_⟩
            simp only [Act.exec, BHeap.realloc, BHeap.dealloc] at e3 e7 ⊢
            rw [e3]
            rw [e3] at e7
            cases e7
            simp only [bind_ok, if_pos hl, pure_eq_ok, BHeap.alloc, this]
          · rw [if_neg hl] at e8; cases e8
    obtain ⟨r, hr, e2⟩ := bind_inv e
    obtain ⟨d, m2, e3, e4⟩ := key r hr
    rw [e3] at e2
    obtain ⟨h2, f1, f2⟩ := ih r.1 m2 (c + d) (c' + d) A A'
      (fun j m s => by rw [Nat.add_assoc, Nat.add_assoc]; exact hA (d + j) m s) b h' e2
    refine ⟨h2, ?_, f2⟩
    show (a.exec ⟨m, c', A'⟩ >>= fun r => (k r.1).alone r.2) = _
    rw [e4]
    exact f1

/-- The allocator that first says `x`, if that is free, and goes on as `A` from its call `c`. -/
def Allocator.first (x : Nat) (c : Nat) (A : Allocator) : Allocator where
  pick := fun n m s => match n with
    | 0 => open Classical in if m x = none then x else A.pick 0 m s
    | n + 1 => A.pick (c + n) m s
  free := fun n m s hf => by
    cases n with
    | zero =>
      show m (if m x = none then x else A.pick 0 m s) = none
      by_cases h : m x = none
      · rw [if_pos h]; exact h
      · rw [if_neg h]; exact A.free 0 m s hf
    | succ n => exact A.free (c + n) m s hf

/-- A program that is right alone in its own memory, with every allocator, is safe. -/
theorem safe_of_alone {β : Type} {Q : β → Mem → Prop} (p : Prog β) : ∀ (m : Mem),
    (∀ c A, ∃ b h', p.alone ⟨m, c, A⟩ = .ok (b, h') ∧ Q b h'.block) → Nonempty Allocator → Safe p m Q := by
  induction p with
  | ret b =>
    intro m h ⟨A⟩
    obtain ⟨b', h', e, q⟩ := h 0 A
    cases e
    exact q
  | err e =>
    intro m h ⟨A⟩
    obtain ⟨b', h', e, q⟩ := h 0 A
    cases e
  | act a k ih =>
    intro m h ⟨A0⟩
    -- an access without a choice
    have det : ∀ (r : a.Ans) (m' : Mem), (∀ c A, a.exec ⟨m, c, A⟩ = .ok (r, ⟨m', c, A⟩)) →
        Safe (k r) m' Q := by
      intro r m' hex
      refine ih r m' (fun c A => ?_) ⟨A0⟩
      obtain ⟨b, h', e, q⟩ := h c A
      refine ⟨b, h', ?_, q⟩
      have e : (a.exec ⟨m, c, A⟩ >>= fun r => (k r.1).alone r.2) = .ok (b, h') := e
      rw [hex] at e
      exact e
    -- an access with the choice `x`
    have cho : ∀ (r : a.Ans) (m' : Mem) (x : Nat), (∀ c A, a.exec ⟨m, 0, Allocator.first x c A⟩ =
        .ok (r, ⟨m', 1, Allocator.first x c A⟩)) → Safe (k r) m' Q := by
      intro r m' x hex
      refine ih r m' (fun c A => ?_) ⟨A0⟩
      obtain ⟨b, h', e, q⟩ := h 0 (Allocator.first x c A)
      have e : (a.exec ⟨m, 0, Allocator.first x c A⟩ >>= fun r => (k r.1).alone r.2) = .ok (b, h') := e
      rw [hex] at e
      obtain ⟨h2, f1, f2⟩ := alone_alloc (k r) m' 1 c (Allocator.first x c A) A
        (fun j m s => by rw [Nat.add_comm 1 j]; rfl) b h' e
      exact ⟨b, h2, f1, by rw [f2]; exact q⟩
    obtain ⟨b0, h0, e0, -⟩ := h 0 A0
    obtain ⟨r0, hr0, -⟩ := bind_inv (x := a.exec ⟨m, 0, A0⟩) e0
    cases a with
    | load p off size align =>
      obtain ⟨bl, e1, e2⟩ := bind_inv hr0
      obtain ⟨v, e3, -⟩ := bind_inv e2
      have e1 := unwrapU_eq_ok e1
      refine ⟨⟨bl, v, e1, e3⟩, fun r m' ⟨b1, g1, g2, g3⟩ => ?_⟩
      subst g3
      refine det r _ fun c A => ?_
      simp only [Act.exec, g1, unwrapU, bind_ok, g2]
      rfl
    | store p off align v =>
      cases p with
      | stat i => cases hr0
      | heap a =>
        obtain ⟨bl, e1, e2⟩ := bind_inv hr0
        obtain ⟨v', e3, -⟩ := bind_inv e2
        have e1 := unwrapU_eq_ok e1
        refine ⟨⟨a, bl, v', rfl, e1, e3⟩, fun r m' ⟨a', b1, b2, g0, g1, g2, g3⟩ => ?_⟩
        cases g0
        subst g3
        refine det r _ fun c A => ?_
        simp only [Act.exec, g1, unwrapU, bind_ok, g2]
        rfl
    | move p src dst size align =>
      cases p with
      | stat i => cases hr0
      | heap a =>
        obtain ⟨bl, e1, e2⟩ := bind_inv hr0
        obtain ⟨v', e3, -⟩ := bind_inv e2
        have e1 := unwrapU_eq_ok e1
        refine ⟨⟨a, bl, v', rfl, e1, e3⟩, fun r m' ⟨a', b1, b2, g0, g1, g2, g3⟩ => ?_⟩
        cases g0
        subst g3
        refine det r _ fun c A => ?_
        simp only [Act.exec, g1, unwrapU, bind_ok, g2]
        rfl
    | alloc size =>
      refine ⟨trivial, fun x m' ⟨g1, g2⟩ => ?_⟩
      subst g2
      refine cho x _ x fun c A => ?_
      simp only [Act.exec, BHeap.alloc, Allocator.first, g1]
      rfl
    | free p size =>
      cases p with
      | stat i => cases hr0
      | heap a =>
        obtain ⟨h1, e1, -⟩ := bind_inv hr0
        obtain ⟨bl, e3, e4⟩ := bind_inv e1
        have e3 := unwrapU_eq_ok e3
        have hl : bl.length = size := by
          by_cases hl : bl.length = size
          · exact hl
          · rw [if_neg hl] at e4; cases e4
        refine ⟨⟨a, bl, rfl, e3, hl⟩, fun r m' ⟨a', b1, g0, g1, g2, g3⟩ => ?_⟩
        cases g0
        subst g3
        refine det r _ fun c A => ?_
        simp only [Act.exec, BHeap.dealloc, g1, unwrapU, bind_ok, if_pos g2]
        rfl
    | realloc p size newSize =>
      cases p with
      | stat i => cases hr0
      | heap a =>
        obtain ⟨h1, e1, -⟩ := bind_inv hr0
        obtain ⟨bl, e3, e4⟩ := bind_inv e1
        obtain ⟨h2, e5, -⟩ := bind_inv e4
        obtain ⟨bl2, e7, e8⟩ := bind_inv e5
        have e3 := unwrapU_eq_ok e3
        have e7 := unwrapU_eq_ok e7
        have : bl2 = bl := by
          have e3 : m a = some bl := e3
          have e7 : m a = some bl2 := e7
          rw [e3] at e7; cases e7; rfl
        subst this
        have hl : bl2.length = size := by
          by_cases hl : bl2.length = size
          · exact hl
          · rw [if_neg hl] at e8; cases e8
        refine ⟨⟨a, bl2, rfl, e3, hl⟩, fun (x : Nat) m' ⟨a', b1, g0, g1, g2, gx, g3⟩ => ?_⟩
        cases g0
        subst g3
        have hx : (if x = a then none else m x) = none := by
          rcases gx with rfl | gx
          · rw [if_pos rfl]
          · rw [gx]; exact ite_self _
        refine cho x _ x fun c A => ?_
        simp only [Act.exec, BHeap.realloc, BHeap.dealloc, g1, unwrapU, bind_ok, if_pos g2, pure_eq_ok,
          BHeap.alloc, Allocator.first, hx, if_true]
        rfl

end Hibit.Threads
