import Verif.Threads.Model
/-!
# The programs do what the functions of the byte model do
-/
namespace Hibit.Threads
open Hibit Hibit.Dense Hibit.Bytes

/-- Running alone from `h`, the program `p` ends as the function `x` does, if that succeeds; `φ` says how the
results correspond. -/
def Ref {β X : Type} (p : Prog β) (h : BHeap) (x : R X) (φ : X → β × BHeap) : Prop :=
  ∀ c, x = .ok c → p.alone h = .ok (φ c)

section
variable {β γ X Y : Type} {h : BHeap}

theorem Ref.ok {b : β} {c : X} {φ : X → β × BHeap} (e : φ c = (b, h)) : Ref (.ret b) h (.ok c) φ :=
  fun c' e' => by cases e'; rw [e]; rfl

theorem Ref.err {p : Prog β} {e : Err} {φ : X → β × BHeap} : Ref p h (.error e) φ := fun c e' => by cases e'

theorem Ref.bind {p : Prog β} {f : β → Prog γ} {x : R X} {g : X → R Y} {φ : X → β × BHeap}
    {ψ : Y → γ × BHeap} (h1 : Ref p h x φ)
    (h2 : ∀ c, x = .ok c → Ref (f (φ c).1) (φ c).2 (g c) ψ) : Ref (p >>= f) h (x >>= g) ψ := by
  intro d e
  obtain ⟨c, e1, e2⟩ := bind_inv e
  rw [alone_bind, h1 c e1]
  exact h2 c e1 d e2

/-- A private computation. -/
theorem Ref.lift {x : R X} {f : X → Prog γ} {g : X → R Y} {ψ : Y → γ × BHeap}
    (h2 : ∀ c, x = .ok c → Ref (f c) h (g c) ψ) : Ref (Prog.lift x >>= f) h (x >>= g) ψ := by
  intro d e
  obtain ⟨c, e1, e2⟩ := bind_inv e
  subst e1
  exact h2 c rfl d e2

/-- A checked number. -/
theorem Ref.check {c : Prop} [Decidable c] {v : X} {er : Err} {f : X → Prog γ} {g : X → R Y} {ψ : Y → γ × BHeap}
    (h2 : c → Ref (f v) h (g v) ψ) : Ref (Prog.lift (if c then .ok v else .error er) >>= f) h
      (if c then (Except.ok v >>= g) else ((Except.error er : R X) >>= g)) ψ := by
  by_cases hc : c
  · simp only [if_pos hc]; exact h2 hc
  · simp only [if_neg hc]; exact Ref.err

theorem Ref.lift0 {x : R X} {φ : X → X × BHeap} (hφ : ∀ c, φ c = (c, h)) : Ref (Prog.lift x) h x φ := by
  intro c e; subst e; rw [hφ]; rfl

/-- The function looks at something that the program does not need. -/
theorem Ref.skip {p : Prog γ} {x : R X} {g : X → R Y} {ψ : Y → γ × BHeap}
    (h2 : ∀ c, x = .ok c → Ref p h (g c) ψ) : Ref p h (x >>= g) ψ := by
  intro d e
  obtain ⟨c, e1, e2⟩ := bind_inv e
  exact h2 c e1 d e2

theorem Ref.ite {c : Prop} [Decidable c] {p q : Prog β} {x y : R X} {φ : X → β × BHeap}
    (h1 : c → Ref p h x φ) (h2 : ¬ c → Ref q h y φ) : Ref (if c then p else q) h (if c then x else y) φ := by
  by_cases hc : c
  · rw [if_pos hc, if_pos hc]; exact h1 hc
  · rw [if_neg hc, if_neg hc]; exact h2 hc

theorem Ref.then {p : Prog β} {f : β → Prog γ} {x : R Y} {ψ : Y → γ × BHeap} {b : β} {h' : BHeap}
    (h1 : p.alone h = .ok (b, h')) (h2 : Ref (f b) h' x ψ) : Ref (p >>= f) h x ψ := by
  intro d e
  rw [alone_bind, h1]
  exact h2 d e

end

/-! ## Accesses to one block -/

theorem put_self {h : BHeap} {a : Nat} {b : Block} (hb : h.block a = some b) : h.put a b = h := by
  unfold BHeap.put
  cases h with
  | mk m c A =>
    congr 1
    funext x
    by_cases e : x = a
    · rw [if_pos e, e]; exact hb.symm
    · rw [if_neg e]

theorem put_put (h : BHeap) (a : Nat) (b b' : Block) : (h.put a b).put a b' = h.put a b' := by
  unfold BHeap.put
  congr 1
  funext x
  by_cases e : x = a <;> simp only [e, if_true, if_false]

theorem put_at (h : BHeap) (a : Nat) (b : Block) : (h.put a b).block a = some b := by
  show (if a = a then some b else _) = _
  rw [if_pos rfl]

section
variable {h : BHeap} {p : Ptr} {b : Block} {X Y γ : Type}

theorem step_alone {a : Act} {r : a.Ans} {h h' : BHeap} (e : a.exec h = .ok (r, h')) :
    (Prog.step a).alone h = .ok (r, h') := by
  show (a.exec h >>= _) = _
  rw [e]
  rfl

theorem rd_ref (hb : look h.block p = some b) (off size align : Nat) :
    Ref (rd p off size align) h (Bytes.load b off size align) (fun v => (v, h)) := by
  intro v e
  show ((unwrapU (look h.block p) >>= fun b => Bytes.load b off size align >>= fun v => pure (v, h)) >>= _) = _
  rw [hb]
  simp only [unwrapU, bind_ok, e]
  rfl

theorem getMask_ref (hb : look h.block p = some b) :
    Ref (getMask p) h (Bytes.getMask b) (fun v => (v, h)) :=
  Ref.bind (rd_ref hb _ _ _) fun _ _ => Ref.lift fun _ _ => Ref.ok rfl

theorem getCap_ref (hb : look h.block p = some b) :
    Ref (getCap p) h (Bytes.getCap b) (fun v => (v, h)) :=
  Ref.bind (rd_ref hb _ _ _) fun _ _ => Ref.lift0 fun _ => rfl

theorem getLen_ref (hb : look h.block p = some b) :
    Ref (getLen p) h (Bytes.getLen b) (fun v => (v, h)) :=
  Ref.bind (rd_ref hb _ _ _) fun _ _ => Ref.lift0 fun _ => rfl

theorem childPtr_ref (hb : look h.block p = some b) (d : Nat) :
    Ref (childPtr p d) h (Bytes.childPtr b d) (fun v => (v, h)) :=
  Ref.bind (rd_ref hb _ _ _) fun _ _ => Ref.lift0 fun _ => rfl

theorem childIdx_ref (hb : look h.block p = some b) (d : Nat) :
    Ref (childIdx p d) h (Bytes.childIdx b d) (fun v => (v, h)) :=
  Ref.bind (rd_ref hb _ _ _) fun _ _ => Ref.lift0 fun _ => rfl

/-- `look` of a block on the heap. -/
theorem look_put (h : BHeap) (a : Nat) (b : Block) : look (h.put a b).block (.heap a) = some b := put_at h a b

theorem wr_ref (h : BHeap) (a : Nat) (b : Block) (off align : Nat) (v : List MByte) :
    Ref (wr (.heap a) off align v) (h.put a b) (Bytes.store b off align v) (fun b' => ((), h.put a b')) := by
  intro b' e
  refine step_alone (a := Act.store (.heap a) off align v) (r := ()) ?_
  simp only [Act.exec, put_at, unwrapU, bind_ok, e, put_put]
  rfl

theorem store_len {b b' : Block} {off align : Nat} {v : List MByte} (e : Bytes.store b off align v = .ok b') :
    b'.length = b.length := by
  unfold Bytes.store at e
  by_cases hc : off % align = 0 ∧ off + v.length ≤ b.length
  · rw [if_pos hc] at e
    cases e
    simp
    omega
  · rw [if_neg hc] at e; cases e

theorem mv_ref (h : BHeap) (a : Nat) (b : Block) (src dst size align : Nat) :
    Ref (mv (.heap a) src dst size align) (h.put a b) (Bytes.memmove b src dst size align)
      (fun b' => ((), h.put a b')) := by
  intro b' e
  refine step_alone (a := Act.move (.heap a) src dst size align) (r := ()) ?_
  simp only [Act.exec, put_at, unwrapU, bind_ok, e, put_put]
  rfl

theorem putChild_ref (h : BHeap) (k : Kind) (a : Nat) (b : Block) (d : Nat) (c : Cell) :
    Ref (putChild k (.heap a) d c) (h.put a b) (Bytes.putChild k b d c) (fun b' => ((), h.put a b')) :=
  Ref.lift fun _ _ => wr_ref h a b _ _ _

theorem bytesOf_inv {b : Block} (e : bytesOf h p = .ok b) : look h.block p = some b := by
  obtain ⟨b', e1, e2⟩ := bind_inv e
  by_cases hl : childrenOff ≤ b'.length
  · rw [if_pos hl] at e2
    cases e2
    have := unwrapU_eq_ok e1
    cases p <;> exact this
  · rw [if_neg hl] at e2; cases e2

theorem bytesMut_inv {a : Nat} {b : Block} (e : bytesMut h p = .ok (a, b)) :
    p = .heap a ∧ h.block a = some b := by
  cases p with
  | stat i => cases e
  | heap x =>
    obtain ⟨b', e1, e2⟩ := bind_inv e
    cases e2
    exact ⟨rfl, bytesOf_inv e1⟩

theorem contains_ref (p : Ptr) (i : Nat) : Ref (contains p i) h (Bytes.contains h p i) (fun c => (c, h)) :=
  Ref.skip fun _ e => Ref.bind (getMask_ref (bytesOf_inv e)) fun _ _ => Ref.lift0 fun _ => rfl

theorem maskOf_ref (p : Ptr) : Ref (getMask p) h (Bytes.maskOf h p) (fun c => (c, h)) :=
  Ref.skip fun _ e => getMask_ref (bytesOf_inv e)

theorem lenOf_ref (p : Ptr) : Ref (getLen p) h (Bytes.lenOf h p) (fun c => (c, h)) :=
  Ref.skip fun _ e => getLen_ref (bytesOf_inv e)

theorem denseOf_ref (p : Ptr) (i : Nat) : Ref (denseOf p i) h (Bytes.denseOf h p i) (fun c => (c, h)) :=
  Ref.bind (maskOf_ref p) fun _ _ => Ref.lift0 fun _ => rfl

theorem getChildPtr_ref (p : Ptr) (i : Nat) :
    Ref (getChildPtr p i) h (Bytes.getChildPtr h p i) (fun c => (c, h)) :=
  Ref.bind (denseOf_ref p i) fun _ _ => Ref.skip fun _ e => childPtr_ref (bytesOf_inv e) _

theorem getChildIdx_ref (p : Ptr) (i : Nat) :
    Ref (getChildIdx p i) h (Bytes.getChildIdx h p i) (fun c => (c, h)) :=
  Ref.bind (denseOf_ref p i) fun _ _ => Ref.skip fun _ e => childIdx_ref (bytesOf_inv e) _

end

/-! ## Node operations -/

theorem nodeNew_ref (h : BHeap) (k : Kind) (cap : Nat) (c : Cell) :
    Ref (nodeNew k cap c) h (Bytes.nodeNew h k cap c) (fun r => (.heap r.2, r.1)) := by
  -- the address does not depend on what is written
  have hal : ∀ b : Block, b.length = layoutSize k cap →
      h.alloc b = ((h.alloc (fresh (layoutSize k cap))).1.put (h.alloc (fresh (layoutSize k cap))).2 b,
        (h.alloc (fresh (layoutSize k cap))).2) := by
    intro b hb
    have hf : (fresh (layoutSize k cap)).length = layoutSize k cap := by simp [fresh]
    simp only [BHeap.alloc, BHeap.put, hb, hf]
    congr 2
    funext x
    by_cases e : x = h.allocator.pick h.calls h.block (layoutSize k cap) <;> simp only [e, if_true, if_false]
  refine Ref.then (step_alone (a := Act.alloc (layoutSize k cap)) rfl) ?_
  have hself : (h.alloc (fresh (layoutSize k cap))).1 =
      (h.alloc (fresh (layoutSize k cap))).1.put (h.alloc (fresh (layoutSize k cap))).2
        (fresh (layoutSize k cap)) := (put_self (by simp [BHeap.alloc])).symm
  generalize (h.alloc (fresh (layoutSize k cap))).1 = h1 at hal hself
  generalize (h.alloc (fresh (layoutSize k cap))).2 = a at hal hself
  rw [hself]
  refine Ref.bind (wr_ref h1 a _ _ _ _) fun b1 e1 => ?_
  refine Ref.ite (fun _ => ?_) fun _ => Ref.err
  refine Ref.bind (wr_ref h1 a b1 _ _ _) fun b2 e2 => ?_
  refine Ref.bind (wr_ref h1 a b2 _ _ _) fun b3 e3 => ?_
  refine Ref.bind (putChild_ref h1 k a b3 0 c) fun b4 e4 => ?_
  obtain ⟨v, -, e4⟩ := bind_inv e4
  refine Ref.ok ?_
  rw [hal b4 (by
    rw [store_len e4, store_len e3, store_len e2, store_len e1]; simp [fresh])]

theorem nodeGrow_ref (h : BHeap) (k : Kind) {a : Nat} {b : Block} (hb : h.block a = some b) :
    Ref (nodeGrow k (.heap a)) h (Bytes.nodeGrow h k a b) (fun r => (.heap r.2.1, r.1)) := by
  refine Ref.bind (getCap_ref hb) fun cap _ => ?_
  refine Ref.bind (getLen_ref hb) fun len _ => ?_
  refine Ref.ite (fun _ => ?_) fun _ => Ref.ok rfl
  refine Ref.check fun _ => ?_
  refine Ref.bind (φ := fun r => (r.2.1, r.1)) (fun r e => ?_) fun r e => ?_
  · refine step_alone (a := Act.realloc (.heap a) (layoutSize k cap) (layoutSize k (cap * 2))) ?_
    simp only [Act.exec, e]
    rfl
  · have hr : r.1.block r.2.1 = some r.2.2 := by
      obtain ⟨b1, -, e⟩ := bind_inv e
      obtain ⟨h1, -, e⟩ := bind_inv e
      cases e
      simp [BHeap.alloc]
    obtain ⟨h', a', b'⟩ := r
    show Ref _ h' _ _
    rw [← put_self (h := h') hr]
    refine Ref.bind (wr_ref h' a' b' _ _ _) fun b2 _ => Ref.ok ?_
    show (_, (h'.put a' b').put a' b2) = _
    rw [put_put]

/-- The block is where `nodeGrow` says. -/
theorem nodeGrow_block {h : BHeap} {k : Kind} {a : Nat} {b : Block} (hb : h.block a = some b)
    {r : BHeap × Nat × Block} (e : Bytes.nodeGrow h k a b = .ok r) : r.1.block r.2.1 = some r.2.2 := by
  obtain ⟨cap, -, e⟩ := bind_inv e
  obtain ⟨len, -, e⟩ := bind_inv e
  by_cases hl : len = cap
  · rw [if_pos hl] at e
    by_cases hc : cap * 2 < 256
    · simp only [if_pos hc] at e
      obtain ⟨nc, -, e⟩ := bind_inv e
      obtain ⟨r1, -, e⟩ := bind_inv e
      obtain ⟨b2, -, e⟩ := bind_inv e
      cases e
      exact put_at _ _ _
    · simp only [if_neg hc] at e
      cases e
  · rw [if_neg hl] at e
    cases e
    exact hb

theorem nodeInsert_ref (h : BHeap) (k : Kind) (p : Ptr) (i : Nat) (v : Cell) :
    Ref (nodeInsert k p i v) h (Bytes.nodeInsert h k p i v) (fun r => ((r.2.1, .heap r.2.2), r.1)) := by
  refine Ref.skip fun ab eab => ?_
  obtain ⟨a, b⟩ := ab
  obtain ⟨rfl, hb⟩ := bytesMut_inv eab
  refine Ref.bind (nodeGrow_ref h k hb) fun r er => ?_
  have hr := nodeGrow_block hb er
  obtain ⟨h', a, b⟩ := r
  show Ref _ h' _ _
  rw [← put_self (h := h') hr]
  refine Ref.bind (getMask_ref (look_put h' a b)) fun m _ => ?_
  refine Ref.lift fun r _ => ?_
  refine Ref.bind (wr_ref h' a b _ _ _) fun b1 _ => ?_
  refine Ref.bind (getMask_ref (look_put h' a b1)) fun m _ => ?_
  refine Ref.lift fun d _ => ?_
  refine Ref.bind (getLen_ref (look_put h' a b1)) fun len _ => ?_
  refine Ref.check fun _ => ?_
  refine Ref.bind (mv_ref h' a b1 _ _ _ _) fun b2 _ => ?_
  refine Ref.bind (putChild_ref h' k a b2 d v) fun b3 _ => ?_
  refine Ref.bind (getLen_ref (look_put h' a b3)) fun len _ => ?_
  refine Ref.check fun _ => ?_
  exact Ref.bind (wr_ref h' a b3 _ _ _) fun b4 _ => Ref.ok (by simp [put_put])

theorem nodeRemove_ref (h : BHeap) (k : Kind) (p : Ptr) (i : Nat) :
    Ref (nodeRemove k p i) h (Bytes.nodeRemove h k p i) (fun r => ((), r)) := by
  refine Ref.skip fun ab eab => ?_
  obtain ⟨a, b⟩ := ab
  obtain ⟨rfl, hb⟩ := bytesMut_inv eab
  rw [← put_self hb]
  simp only [put_put]
  refine Ref.bind (getMask_ref (look_put h a b)) fun m _ => ?_
  refine Ref.lift fun d _ => ?_
  refine Ref.lift fun r _ => ?_
  refine Ref.bind (wr_ref h a b _ _ _) fun b1 _ => ?_
  refine Ref.bind (getLen_ref (look_put h a b1)) fun len _ => ?_
  refine Ref.check fun _ => ?_
  refine Ref.bind (mv_ref h a b1 _ _ _ _) fun b2 _ => ?_
  refine Ref.bind (getLen_ref (look_put h a b2)) fun len _ => ?_
  refine Ref.check fun _ => ?_
  intro h2 e
  obtain ⟨b3, e1, e⟩ := bind_inv e
  cases e
  exact wr_ref h a b2 _ _ _ b3 e1

theorem dropNode_ref (h : BHeap) (k : Kind) (p : Ptr) :
    Ref (dropNode k p) h (Bytes.dropNode h k p) (fun r => ((), r)) := by
  refine Ref.skip fun ab eab => ?_
  obtain ⟨a, b⟩ := ab
  obtain ⟨rfl, hb⟩ := bytesMut_inv eab
  refine Ref.bind (getCap_ref hb) fun cap _ => ?_
  intro h' e
  refine step_alone (a := Act.free (.heap a) (layoutSize k cap)) (r := ()) ?_
  simp only [Act.exec, e]
  rfl

theorem setChild_ref (h : BHeap) (k : Kind) (p : Ptr) (i : Nat) (v : Cell) :
    Ref (setChild k p i v) h (Bytes.setChild h k p i v) (fun r => ((), r)) := by
  refine Ref.skip fun ab eab => ?_
  obtain ⟨a, b⟩ := ab
  obtain ⟨rfl, hb⟩ := bytesMut_inv eab
  rw [← put_self hb]
  simp only [put_put]
  refine Ref.bind (getMask_ref (look_put h a b)) fun m _ => ?_
  refine Ref.lift fun d _ => ?_
  intro h2 e
  obtain ⟨b3, e1, e⟩ := bind_inv e
  cases e
  exact putChild_ref h k a b _ _ b3 e1

/-! ## Loops -/

section
variable {σ τ : Type} {v : σ → Nat → R (σ × Bool)} {w : τ → Nat → Prog (τ × Bool)} {φ : σ → τ × BHeap}

/-- Loop results. -/
def loopRes (φ : σ → τ × BHeap) (r : σ × Bool) : (τ × Bool) × BHeap := (((φ r.1).1, r.2), (φ r.1).2)

theorem loopFwd_ref (start stop : Nat)
    (hv : ∀ s i, Ref (w (φ s).1 i) (φ s).2 (v s i) (loopRes φ)) : ∀ (is : List Nat) (s : σ),
    Ref (loopFwd start stop w is (φ s).1) (φ s).2 (constLoopFwd start stop v is s) (loopRes φ)
  | [], s => Ref.ok rfl
  | i :: is, s => by
    unfold loopFwd constLoopFwd
    refine Ref.ite (fun _ => Ref.ok rfl) fun _ => Ref.ite (fun _ => ?_)
      fun _ => loopFwd_ref start stop hv is s
    refine Ref.bind (hv s i) fun r _ => ?_
    obtain ⟨s', b⟩ := r
    exact Ref.ite (fun _ => Ref.ok rfl) fun _ => loopFwd_ref start stop hv is s'

theorem loopRevGo_ref (start stop : Nat)
    (hv : ∀ s i, Ref (w (φ s).1 i) (φ s).2 (v s i) (loopRes φ)) : ∀ (is : List Nat) (s : σ),
    Ref (loopRevGo start stop w is (φ s).1) (φ s).2 (constLoopRevGo start stop v is s) (loopRes φ)
  | [], s => Ref.ok rfl
  | i :: is, s => by
    unfold loopRevGo constLoopRevGo
    refine Ref.ite (fun _ => ?_) fun _ => loopRevGo_ref start stop hv is s
    refine Ref.bind (hv s i) fun r _ => ?_
    obtain ⟨s', b⟩ := r
    exact Ref.ite (fun _ => Ref.ok rfl) fun _ => loopRevGo_ref start stop hv is s'

theorem loop_ref (start stop : Nat) (hv : ∀ s i, Ref (w (φ s).1 i) (φ s).2 (v s i) (loopRes φ)) (s : σ) :
    Ref (loop start stop w (φ s).1) (φ s).2 (constLoop start stop v s) (loopRes φ) := by
  unfold loop constLoop
  exact Ref.ite (fun _ => loopFwd_ref start stop hv _ s) fun _ => Ref.err

theorem loopRev_ref (start stop : Nat) (hv : ∀ s i, Ref (w (φ s).1 i) (φ s).2 (v s i) (loopRes φ)) (s : σ) :
    Ref (loopRev start stop w (φ s).1) (φ s).2 (constLoopRev start stop v s) (loopRes φ) := by
  unfold loopRev constLoopRev
  exact Ref.ite (fun _ => loopRevGo_ref start stop hv _ s) fun _ => Ref.err

end

theorem each_ref {f : Nat → Prog Unit} {g : BHeap → Nat → R BHeap}
    (hf : ∀ h i, Ref (f i) h (g h i) (fun r => ((), r))) : ∀ (is : List Nat) (h : BHeap),
    Ref (each f is) h (is.foldlM g h) (fun r => ((), r))
  | [], h => Ref.ok rfl
  | i :: is, h => by
    rw [List.foldlM_cons]
    exact Ref.bind (hf h i) fun h' _ => each_ref hf is h'

/-! ## The tree -/

section
variable {α : Type} {h : BHeap}

theorem newTree_ref (D : Nat) (h : BHeap) :
    Ref (newTree α D) h (Bytes.default α D h) (fun t => (ofBT t, t.heap)) := by
  unfold newTree Bytes.default
  by_cases hD : D = 1
  · simp only [if_pos hD]
    exact Ref.bind (nodeNew_ref h _ _ _) fun r _ => Ref.ok rfl
  · simp only [if_neg hD]
    exact Ref.lift fun e _ => Ref.bind (nodeNew_ref h _ _ _) fun r _ => Ref.ok rfl

/-- The descent apart from the memory. -/
def spot (w : Bytes.Walk) : Spot × BHeap := (⟨w.root, w.slot⟩, w.heap)

theorem read_ref (w : Bytes.Walk) : Ref (spot w).1.read w.heap w.read (fun p => (p, w.heap)) := by
  obtain ⟨h, root, slot⟩ := w
  cases slot with
  | root => exact Ref.ok rfl
  | cell a d => exact Ref.skip fun b e => childPtr_ref (p := .heap a) (unwrapU_eq_ok e) d

theorem write_ref (w : Bytes.Walk) (p : Ptr) : Ref ((spot w).1.write p) w.heap (w.write p) spot := by
  obtain ⟨h, root, slot⟩ := w
  cases slot with
  | root => exact Ref.ok rfl
  | cell a d =>
    refine Ref.skip fun b e => ?_
    have hb : h.block a = some b := unwrapU_eq_ok e
    show Ref _ h _ _
    rw [← put_self hb]
    simp only [put_put]
    exact Ref.bind (putChild_ref h _ a b d _) fun b' _ => Ref.ok (by simp [spot, put_put])

theorem insertStep_ref (D : Nat) (indices : List Nat) (w : Bytes.Walk) (N : Nat) :
    Ref (insertStep D indices (spot w).1 N) (spot w).2 (Bytes.insertStep D indices w N) (loopRes spot) := by
  unfold insertStep Bytes.insertStep
  refine Ref.lift fun i _ => ?_
  refine Ref.bind (read_ref w) fun p _ => ?_
  refine Ref.bind (contains_ref p i) fun c _ => ?_
  refine Ref.ite (fun _ => ?_) fun _ => ?_
  · refine Ref.skip fun ab eab => ?_
    obtain ⟨a, b⟩ := ab
    obtain ⟨rfl, hb⟩ := bytesMut_inv eab
    refine Ref.bind (denseOf_ref (.heap a) i) fun d _ => ?_
    exact Ref.ok rfl
  · have tail : ∀ (h1 : BHeap) (child : Nat), Ref (do
          let r ← nodeInsert .branch p i (.ptr (.heap child))
          let w ← (spot w).1.write r.2
          let slot ← slotOf r.2 r.1
          return (⟨w.root, slot⟩, false)) h1 (do
          let (h, d, a) ← Bytes.nodeInsert h1 .branch p i (.ptr (.heap child))
          let w ← { w with heap := h }.write (.heap a)
          return ({ w with slot := .cell a d }, false)) (loopRes spot) := by
      intro h1 child
      refine Ref.bind (nodeInsert_ref h1 _ p i _) fun r _ => ?_
      obtain ⟨h2, d, a⟩ := r
      refine Ref.bind (write_ref ⟨h2, w.root, w.slot⟩ (.heap a)) fun w' _ => ?_
      exact Ref.ok rfl
    by_cases hN : N = D - 2
    · simp only [if_pos hN]
      exact Ref.bind (nodeNew_ref w.heap _ _ _) fun r _ => tail r.1 r.2
    · simp only [if_neg hN]
      refine Ref.lift fun e _ => ?_
      exact Ref.bind (nodeNew_ref w.heap _ _ _) fun r _ => tail r.1 r.2

theorem insertWalk_ref (D : Nat) (t : BT α) (indices : List Nat) :
    Ref (insertWalk D t.root indices) t.heap (Bytes.insertWalk D t indices) spot := by
  unfold insertWalk Bytes.insertWalk
  refine Ref.bind (loop_ref (φ := spot) 0 (D - 1) (insertStep_ref D indices) ⟨t.heap, t.root, .root⟩)
    fun r _ => ?_
  obtain ⟨w, b⟩ := r
  exact Ref.ok rfl

/-- The result of an insertion apart from the memory. -/
def outOf (o : Bytes.InsOut α) : InsOut α × BHeap := (⟨ofBT o.tree, o.dataIndex, o.dropped, o.called⟩, o.tree.heap)

theorem getOrInsertImpl_ref (D : Nat) (t : BT α) (index : Nat) (ins : Bool) (value : α) :
    Ref (getOrInsertImpl D (ofBT t) index ins value) t.heap (Bytes.getOrInsertImpl D t index ins value) outOf := by
  unfold getOrInsertImpl Bytes.getOrInsertImpl
  refine Ref.lift fun indices _ => ?_
  refine Ref.bind (insertWalk_ref D t indices) fun w _ => ?_
  refine Ref.bind (read_ref w) fun p _ => ?_
  refine Ref.lift fun i _ => ?_
  refine Ref.bind (contains_ref p i) fun c _ => ?_
  refine Ref.ite (fun _ => ?_) fun _ => ?_
  · refine Ref.bind (getChildIdx_ref p i) fun j _ => ?_
    cases ins
    · refine Ref.lift fun old _ => ?_
      exact Ref.lift fun old _ => Ref.ok rfl
    · refine Ref.lift fun old _ => ?_
      refine Ref.lift fun old _ => ?_
      exact Ref.lift fun data _ => Ref.ok rfl
  · refine Ref.bind (nodeInsert_ref w.heap _ p i _) fun r _ => ?_
    obtain ⟨h2, d, a⟩ := r
    refine Ref.bind (write_ref ⟨h2, w.root, w.slot⟩ (.heap a)) fun w' _ => ?_
    exact Ref.ok rfl

theorem insert_ref (D : Nat) (t : BT α) (index : Nat) (value : α) :
    Ref (insert D (ofBT t) index value) t.heap (Bytes.insert D t index value) outOf :=
  Ref.lift fun _ _ => getOrInsertImpl_ref D t _ _ _

theorem getOrInsert_ref (D : Nat) (t : BT α) (index : Nat) (value : α) :
    Ref (getOrInsert D (ofBT t) index value) t.heap (Bytes.getOrInsert D t index value) outOf :=
  Ref.lift fun _ _ => getOrInsertImpl_ref D t _ _ _

theorem branchLoop_ref (h : BHeap) (indices : List Nat) : ∀ (ns : List Nat) (p : Ptr),
    Ref (branchLoop indices ns p) h (Bytes.branchLoop h indices ns p) (fun l => (l, h))
  | [], _ => Ref.ok rfl
  | _ :: ns, p => Ref.lift fun i _ => Ref.bind (getChildPtr_ref p i) fun q _ =>
      Ref.bind (branchLoop_ref h indices ns q) fun _ _ => Ref.ok rfl

theorem terminalLoop_ref (h : BHeap) (indices : List Nat) : ∀ (ns : List Nat) (p : Ptr),
    Ref (terminalLoop indices ns p) h (Bytes.terminalLoop h indices ns p) (fun l => (l, h))
  | [], _ => Ref.ok rfl
  | _ :: ns, p => Ref.lift fun i _ => Ref.bind (getChildPtr_ref p i) fun q _ =>
      terminalLoop_ref h indices ns q

theorem getTerminalNode_ref (D : Nat) (h : BHeap) (root : Ptr) (indices : List Nat) :
    Ref (getTerminalNode D root indices) h (Bytes.getTerminalNode D h root indices) (fun l => (l, h)) :=
  Ref.bind (terminalLoop_ref h indices _ root) fun _ _ => Ref.lift fun _ _ => Ref.ok rfl

theorem climbStep_ref (root : Ptr) (branch : List Ptr) (indices : List Nat) (h : BHeap) (N : Nat) :
    Ref (climbStep root branch indices () N) h (Bytes.climbStep root branch indices h N)
      (loopRes fun h => ((), h)) := by
  have tail : ∀ node : Ptr, Ref (do
      let i ← Prog.lift (getP indices N)
      nodeRemove .branch node i
      let len ← getLen node
      if len ≠ 1 then return ((), true)
      else if N ≠ 0 then
        dropNode .branch node
        return ((), false)
      else return ((), false)) h (do
      let i ← getP indices N
      let h ← Bytes.nodeRemove h .branch node i
      let len ← lenOf h node
      if len ≠ 1 then return (h, true)
      else if N ≠ 0 then
        let h ← Bytes.dropNode h .branch node
        return (h, false)
      else return (h, false)) (loopRes fun h => ((), h)) := by
    intro node
    refine Ref.lift fun i _ => ?_
    refine Ref.bind (nodeRemove_ref h _ node i) fun h1 _ => ?_
    refine Ref.bind (lenOf_ref node) fun len _ => ?_
    refine Ref.ite (fun _ => Ref.ok rfl) fun _ => Ref.ite (fun _ => ?_) fun _ => Ref.ok rfl
    exact Ref.bind (dropNode_ref h1 _ node) fun h2 _ => Ref.ok rfl
  unfold climbStep Bytes.climbStep
  by_cases hN : N = 0
  · simp only [if_pos hN]
    exact tail root
  · simp only [if_neg hN]
    exact Ref.lift fun node _ => tail node

theorem removeCell_ref (D : Nat) (t : BT α) (indices : List Nat) (branch : List Ptr) (terminal : Ptr)
    (inner : Nat) : Ref (removeCell D t.root indices branch terminal inner) t.heap
      (Bytes.removeCell D t indices branch terminal inner) (fun h => ((), h)) := by
  unfold removeCell Bytes.removeCell
  refine Ref.bind (nodeRemove_ref t.heap _ terminal inner) fun h1 _ => ?_
  refine Ref.bind (lenOf_ref terminal) fun len _ => ?_
  refine Ref.ite (fun _ => ?_) fun _ => Ref.ok rfl
  refine Ref.bind (dropNode_ref h1 _ terminal) fun h2 _ => ?_
  refine Ref.bind (loopRev_ref (φ := fun h => ((), h)) 0 (D - 1) (climbStep_ref t.root branch indices) h2)
    fun r _ => ?_
  obtain ⟨h3, b⟩ := r
  exact Ref.ok rfl

theorem removeKey_ref (D : Nat) (t : BT α) (index dataIndex : Nat) :
    Ref (removeKey D (ofBT t) index dataIndex) t.heap (Bytes.removeKey D t index dataIndex)
      (fun t => (ofBT t, t.heap)) := by
  unfold removeKey Bytes.removeKey
  refine Ref.lift fun lastKey _ => ?_
  refine Ref.ite (fun _ => ?_) fun _ => Ref.ok rfl
  refine Ref.lift fun keys _ => ?_
  refine Ref.lift fun indices _ => ?_
  refine Ref.bind (getTerminalNode_ref D t.heap t.root indices) fun r _ => ?_
  obtain ⟨node, inner⟩ := r
  exact Ref.bind (setChild_ref t.heap _ node inner _) fun h2 _ => Ref.ok rfl

theorem remove_ref (D : Nat) (t : BT α) (index : Nat) :
    Ref (remove D (ofBT t) index) t.heap (Bytes.remove D t index)
      (fun r => ((ofBT r.1, r.2), r.1.heap)) := by
  unfold remove Bytes.remove
  refine Ref.lift fun index _ => ?_
  refine Ref.lift fun indices _ => ?_
  refine Ref.bind (branchLoop_ref t.heap indices _ t.root) fun branch _ => ?_
  refine Ref.lift fun terminal _ => ?_
  refine Ref.lift fun inner _ => ?_
  refine Ref.bind (getChildIdx_ref terminal inner) fun dataIndex _ => ?_
  refine Ref.lift fun key _ => ?_
  refine Ref.ite (fun _ => ?_) fun _ => Ref.ok rfl
  refine Ref.bind (removeCell_ref D t indices branch terminal inner) fun h1 _ => ?_
  refine Ref.bind (removeKey_ref D ⟨h1, t.root, t.data, t.keys⟩ index dataIndex) fun t2 _ => ?_
  refine Ref.lift fun r _ => ?_
  obtain ⟨v, data⟩ := r
  exact Ref.ok rfl

theorem dropNodeWithChilds_ref : ∀ (r : Nat) (h : BHeap) (p : Ptr),
    Ref (dropNodeWithChilds r p) h (Bytes.dropNodeWithChilds r h p) (fun h => ((), h))
  | 0, _, _ => Ref.err
  | 1, h, p => dropNode_ref h _ p
  | r + 2, h, p => by
    unfold dropNodeWithChilds Bytes.dropNodeWithChilds
    refine Ref.bind (maskOf_ref p) fun m _ => ?_
    refine Ref.bind (each_ref (fun h i => ?_) _ h) fun h2 _ => dropNode_ref h2 _ p
    exact Ref.bind (getChildPtr_ref p i) fun q _ => dropNodeWithChilds_ref (r + 1) h q

theorem dropTree_ref (D : Nat) (t : BT α) :
    Ref (dropTree D (ofBT t)) t.heap (Bytes.dropImpl D t) (fun r => r) := by
  unfold dropTree Bytes.dropImpl
  refine Ref.ite (fun _ => ?_) fun _ => Ref.err
  refine Ref.lift fun vs _ => ?_
  exact Ref.bind (dropNodeWithChilds_ref D t.heap t.root) fun h _ => Ref.ok rfl

theorem get_ref (D : Nat) (t : BT α) (index : Nat) :
    Ref (get D (ofBT t) index) t.heap ((Bytes.impl α D).get t index) (fun r => (r, t.heap)) := by
  unfold get Impl.get
  refine Ref.lift fun index _ => ?_
  refine Ref.lift fun indices _ => ?_
  show Ref _ _ (Bytes.treeData D t index indices) _
  refine Ref.bind (getTerminalNode_ref D t.heap t.root indices) fun r _ => ?_
  obtain ⟨node, inner⟩ := r
  refine Ref.bind (getChildIdx_ref node inner) fun dataIndex _ => ?_
  refine Ref.lift fun key _ => ?_
  refine Ref.ite (fun _ => ?_) fun _ => Ref.ok rfl
  refine Ref.lift fun v _ => ?_
  exact Ref.lift fun v _ => Ref.ok rfl

/-- Every operation of the byte model is done by its program. -/
theorem opProg_ref (D : Nat) (t : BT α) (o : Op α) :
    Ref (opProg D (ofBT t) o) t.heap (Bytes.step D t o) (fun r => ((ofBT r.1, r.2), r.1.heap)) := by
  cases o with
  | insert k v => exact Ref.bind (insert_ref D t k v) fun out _ => Ref.ok rfl
  | getOrInsert k dflt g =>
    refine Ref.bind (getOrInsert_ref D t k dflt) fun out _ => ?_
    refine Ref.bind (φ := fun r => ((ofBT r.1, r.2), r.1.heap)) (x := Bytes.writeRef out.tree out.dataIndex g)
      ?_ fun r _ => ?_
    · refine Ref.lift fun old _ => ?_
      refine Ref.lift fun old _ => ?_
      exact Ref.lift fun data _ => Ref.ok rfl
    · obtain ⟨t2, v⟩ := r
      exact Ref.ok rfl
  | remove k =>
    refine Ref.bind (remove_ref D t k) fun r _ => ?_
    obtain ⟨t2, v⟩ := r
    exact Ref.ok rfl
  | get k => exact Ref.bind (get_ref D t k) fun r _ => Ref.ok rfl
  | mutValues g =>
    refine Ref.bind (φ := fun t => (ofBT t, t.heap)) (x := Bytes.mutValues t g) ?_ fun t2 _ => Ref.ok rfl
    unfold mutValues Bytes.mutValues Bytes.keyValues
    by_cases hc : 1 ≤ t.keys.length ∧ 1 ≤ t.data.length
    · rw [if_pos (show 1 ≤ (ofBT t).keys.length ∧ 1 ≤ (ofBT t).data.length from hc), if_pos hc]
      exact Ref.ok rfl
    · rw [if_neg hc]; exact Ref.err

end
end Hibit.Threads
