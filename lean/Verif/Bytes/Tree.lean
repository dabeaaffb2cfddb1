import Verif.Bytes.Sim
/-!
# The byte model simulates the cell model: the tree
-/
namespace Hibit.Bytes
open Hibit Hibit.Dense

variable {α : Type}

variable {ρ : Ren} {F : Mem}

/-- The byte tree represents the cell tree, in a memory that contains `F` besides. -/
structure TRep (ρ : Ren) (F : Mem) (t : DT α) (bt : BT α) : Prop where
  heap : HeapRep ρ F t.heap bt.heap
  root : PtrRel ρ t.root bt.root
  data : bt.data = t.data
  keys : bt.keys = t.keys

/-- The places in the tree correspond. -/
inductive SlotRel (ρ : Ren) : Slot → Slot → Prop
  | root : SlotRel ρ .root .root
  | cell {a a' : Nat} (d : Nat) : ρ a = some a' → SlotRel ρ (.cell a d) (.cell a' d)

theorem SlotRel.mono {ρ ρ' : Ren} {s s' : Slot} (h : SlotRel ρ s s') (le : Ren.le ρ ρ') :
    SlotRel ρ' s s' := by
  cases h with
  | root => exact .root
  | cell d e => exact .cell d (le _ _ e)

/-- The states of the descent correspond. -/
structure WRep (ρ : Ren) (F : Mem) (w : Dense.Walk) (bw : Walk) : Prop where
  heap : HeapRep ρ F w.heap bw.heap
  root : PtrRel ρ w.root bw.root
  slot : SlotRel ρ w.slot bw.slot

/-- The results of an insertion correspond. -/
structure ORep (ρ : Ren) (F : Mem) (o : Dense.InsOut α) (bo : InsOut α) : Prop where
  tree : TRep ρ F o.tree bo.tree
  dataIndex : bo.dataIndex = o.dataIndex
  dropped : bo.dropped = o.dropped
  called : bo.called = o.called

/-! ## Loops -/

section
variable {σ τ : Type} {Q : Ren → σ → τ → Prop} {v : σ → Nat → R (σ × Bool)}
  {w : τ → Nat → R (τ × Bool)}

theorem constLoopFwd_sim (start stop : Nat)
    (hv : ∀ ρ s t i, Q ρ s t → SimW ρ (fun ρ' x y => Q ρ' x.1 y.1 ∧ x.2 = y.2) (v s i) (w t i)) :
    ∀ (is : List Nat) (ρ : Ren) (s : σ) (t : τ), Q ρ s t →
      SimW ρ (fun ρ' x y => Q ρ' x.1 y.1 ∧ x.2 = y.2) (constLoopFwd start stop v is s)
        (constLoopFwd start stop w is t)
  | [], ρ, s, t, q => SimW.ok ⟨q, rfl⟩
  | i :: is, ρ, s, t, q => by
    unfold constLoopFwd
    refine Sim.ite (fun _ => SimW.ok ⟨q, rfl⟩) fun _ => Sim.ite (fun _ => ?_)
      fun _ => constLoopFwd_sim start stop hv is ρ s t q
    refine SimW.bind (hv ρ s t i q) fun ρ' x y le hxy => ?_
    obtain ⟨x, bx⟩ := x
    obtain ⟨y, by'⟩ := y
    obtain ⟨q', rfl⟩ := hxy
    cases bx with
    | true => exact SimW.ok ⟨q', rfl⟩
    | false => exact constLoopFwd_sim start stop hv is ρ' x y q'

theorem constLoop_sim (start stop : Nat)
    (hv : ∀ ρ s t i, Q ρ s t → SimW ρ (fun ρ' x y => Q ρ' x.1 y.1 ∧ x.2 = y.2) (v s i) (w t i)) {s : σ}
    {t : τ} (q : Q ρ s t) : SimW ρ (fun ρ' x y => Q ρ' x.1 y.1 ∧ x.2 = y.2) (constLoop start stop v s)
      (constLoop start stop w t) :=
  Sim.ite (fun _ => constLoopFwd_sim start stop hv _ ρ s t q) fun _ => Sim.err

theorem foldlM_simW {f : σ → Nat → R σ} {g : τ → Nat → R τ}
    (hf : ∀ ρ s t i, Q ρ s t → SimW ρ Q (f s i) (g t i)) :
    ∀ (l : List Nat) (ρ : Ren) (s : σ) (t : τ), Q ρ s t → SimW ρ Q (l.foldlM f s) (l.foldlM g t)
  | [], _, s, t, q => SimW.ok q
  | i :: l, ρ, s, t, q => by
    rw [List.foldlM_cons, List.foldlM_cons]
    exact SimW.bind (hf ρ s t i q) fun ρ' x y _ q' => foldlM_simW hf l ρ' x y q'

end

section
variable {σ τ : Type} {Q : σ → τ → Prop} {v : σ → Nat → R (σ × Bool)} {w : τ → Nat → R (τ × Bool)}

theorem constLoopRevGo_sim (start stop : Nat)
    (hv : ∀ s t i, Q s t → Sim (fun x y => Q x.1 y.1 ∧ x.2 = y.2) (v s i) (w t i)) :
    ∀ (is : List Nat) (s : σ) (t : τ), Q s t →
      Sim (fun x y => Q x.1 y.1 ∧ x.2 = y.2) (constLoopRevGo start stop v is s)
        (constLoopRevGo start stop w is t)
  | [], s, t, q => Sim.ok ⟨q, rfl⟩
  | i :: is, s, t, q => by
    unfold constLoopRevGo
    refine Sim.ite (fun _ => ?_) fun _ => constLoopRevGo_sim start stop hv is s t q
    refine Sim.bind (hv s t i q) fun x y hxy => ?_
    obtain ⟨x, bx⟩ := x
    obtain ⟨y, by'⟩ := y
    obtain ⟨q', rfl⟩ := hxy
    cases bx with
    | true => exact Sim.ok ⟨q', rfl⟩
    | false => exact constLoopRevGo_sim start stop hv is x y q'

theorem constLoopRev_sim (start stop : Nat)
    (hv : ∀ s t i, Q s t → Sim (fun x y => Q x.1 y.1 ∧ x.2 = y.2) (v s i) (w t i)) {s : σ} {t : τ}
    (q : Q s t) : Sim (fun x y => Q x.1 y.1 ∧ x.2 = y.2) (constLoopRev start stop v s)
      (constLoopRev start stop w t) :=
  Sim.ite (fun _ => constLoopRevGo_sim start stop hv _ s t q) fun _ => Sim.err

theorem foldlM_sim {f : σ → Nat → R σ} {g : τ → Nat → R τ}
    (hf : ∀ s t i, Q s t → Sim Q (f s i) (g t i)) :
    ∀ (l : List Nat) (s : σ) (t : τ), Q s t → Sim Q (l.foldlM f s) (l.foldlM g t)
  | [], s, t, q => Sim.ok q
  | i :: l, s, t, q => by
    rw [List.foldlM_cons, List.foldlM_cons]
    exact Sim.bind (hf s t i q) fun x y q' => foldlM_sim hf l x y q'

end

/-- Two binds at once. -/
theorem Sim.bind2 {A A2 B A' B' : Type} {Q : A2 → B → Prop} {Q' : A' → B' → Prop} {x : R A}
    {x2 : A → R A2} {y : R B} {f : A2 → R A'} {g : B → R B'} (h : Sim Q (x >>= x2) y)
    (hf : ∀ a b, Q a b → Sim Q' (f a) (g b)) :
    Sim Q' (x >>= fun z => x2 z >>= f) (y >>= g) := by
  have e : (x >>= fun z => x2 z >>= f) = ((x >>= x2) >>= f) := by
    cases x <;> rfl
  rw [e]
  exact Sim.bind h hf

/-- Reading a property of a node. -/
theorem Sim.bindF {A X A' B' : Type} {x : R A} {φ : A → X} {y : R X} {f : A → R A'} {g : X → R B'}
    {Q' : A' → B' → Prop} (h : Sim Eq (do let a ← x; return φ a) y)
    (hf : ∀ a, Sim Q' (f a) (g (φ a))) : Sim Q' (x >>= f) (y >>= g) := by
  cases x with
  | error _ => exact Sim.err
  | ok a =>
    have := h (φ a) rfl
    obtain ⟨b, hb, rfl⟩ := this
    rw [hb]
    exact hf a

/-! ## Construction and insertion -/

theorem emptyHeap_rep {bh : BHeap} (hf : Finite bh.block) :
    HeapRep (fun _ => none) bh.block ⟨fun _ => none, 0⟩ bh :=
  ⟨fun _ _ h => (by cases h), fun _ _ h => (by cases h), fun _ _ _ _ _ h => (by cases h), fun _ _ => rfl, hf⟩

/-- dense_tree.rs:92-112 -/
theorem default_sim (D : Nat) {bh : BHeap} (hf : Finite bh.block) :
    Sim (fun t bt => ∃ ρ, TRep ρ bh.block t bt) (Dense.default α D) (default α D bh) := by
  unfold Dense.default default
  have key : ∀ (x : Heap × Nat) (y : BHeap × Nat),
      (∃ ρ', Ren.le (fun _ => none) ρ' ∧ HeapRep ρ' bh.block x.1 y.1 ∧ ρ' x.2 = some y.2) →
      Sim (fun t bt => ∃ ρ, TRep ρ bh.block t bt)
        (.ok (⟨x.1, .heap x.2, [none], [usizeMod - 1]⟩ : DT α))
        (.ok ⟨y.1, .heap y.2, [none], [usizeMod - 1]⟩) := by
    rintro ⟨h, a⟩ ⟨bh, a'⟩ ⟨ρ, -, H, e⟩
    exact Sim.ok ⟨ρ, H, .heap e, rfl, rfl⟩
  by_cases hD : D = 1
  · simp only [if_pos hD]
    exact Sim.bind (nodeNew_sim (emptyHeap_rep hf) (by decide) (.idx 0 (by decide))) key
  · simp only [if_neg hD]
    refine Sim.same fun e he => ?_
    exact Sim.bind (nodeNew_sim (emptyHeap_rep hf) (by decide) (.ptr e e (emptyNode_rel he _))) key

theorem read_sim {w : Dense.Walk} {bw : Walk} (W : WRep ρ F w bw) : Sim (PtrRel ρ) w.read bw.read := by
  unfold Dense.Walk.read Walk.read
  have hs := W.slot
  generalize w.slot = sl at hs
  generalize bw.slot = sl' at hs
  cases hs with
  | root => exact Sim.ok W.root
  | cell d ha =>
    rename_i a a'
    intro p e
    simp only at e ⊢
    cases hn : w.heap.node a with
    | none => rw [hn] at e; cases e
    | some n =>
      obtain ⟨a2, b, ha2, hb, -, r⟩ := W.heap.live a n hn
      rw [ha] at ha2
      cases ha2
      rw [hn] at e
      rw [hb]
      exact childPtr_sim r d p e

theorem write_sim {w : Dense.Walk} {bw : Walk} (W : WRep ρ F w bw) {p p' : Ptr} (hp : PtrRel ρ p p') :
    Sim (WRep ρ F) (w.write p) (bw.write p') := by
  unfold Dense.Walk.write Walk.write
  have hs := W.slot
  cases hw : w.slot with
  | root =>
    rw [hw] at hs
    cases hbw : bw.slot with
    | root => exact Sim.ok ⟨W.heap, hp, .root⟩
    | cell a d => rw [hbw] at hs; cases hs
  | cell a d =>
    rw [hw] at hs
    cases hbw : bw.slot with
    | root => rw [hbw] at hs; cases hs
    | cell a' d' =>
      rw [hbw] at hs
      have hs' := hs
      cases hs with
      | cell _ ha =>
      intro w' e
      simp only at e ⊢
      cases hn : w.heap.node a with
      | none => rw [hn] at e; cases e
      | some n =>
        obtain ⟨a2, b, ha2, hb, -, r⟩ := W.heap.live a n hn
        rw [ha] at ha2
        cases ha2
        rw [hn] at e
        rw [hb]
        simp only [unwrapU, bind_ok] at e ⊢
        by_cases hk : n.kind ≠ .branch
        · rw [if_pos hk] at e; cases e
        rw [if_neg hk] at e
        have hk : n.kind = .branch := by simpa using hk
        by_cases hd : d < n.cells.length
        rotate_left
        · rw [setU, if_neg hd] at e; cases e
        rw [setU_ok _ hd, bind_ok] at e
        obtain ⟨b4, e4, r4⟩ := putChild_ok r (d := d) (c := .ptr p) (c' := .ptr p') hd
          (by rw [hk]; exact .ptr p p' hp)
        rw [hk] at e4
        rw [e4, bind_ok]
        cases e
        exact ⟨_, rfl, W.heap.put hn ha r4, W.root, hs'⟩

theorem deref_of_mut {h : Heap} {p : Ptr} {a : Nat} {n : Node} (e : derefMut h p = .ok (a, n)) :
    deref h p = .ok n := by
  cases p with
  | stat i => cases e
  | heap x =>
    simp only [derefMut] at e
    simp only [deref]
    cases hn : h.node x with
    | none => rw [hn] at e; cases e
    | some m => rw [hn] at e; cases e; rfl

theorem denseOf_ok {h : Heap} {bh : BHeap} (H : HeapRep ρ F h bh) {p p' : Ptr} (hp : PtrRel ρ p p')
    {n : Node} (e : deref h p = .ok n) (i : Nat) : denseOf bh p' i = denseIndex n.mask i := by
  obtain ⟨b, hb, r⟩ := deref_sim H hp n e
  unfold denseOf maskOf
  simp only [hb, bind_ok, getMask_ok r]

theorem insertStep_sim (D : Nat) (indices : List Nat) {w : Dense.Walk} {bw : Walk} (N : Nat)
    (W : WRep ρ F w bw) : SimW ρ (fun ρ' x y => WRep ρ' F x.1 y.1 ∧ x.2 = y.2)
      (Dense.insertStep D indices w N) (insertStep D indices bw N) := by
  unfold Dense.insertStep insertStep
  refine Sim.same fun i _ => ?_
  refine Sim.bind (read_sim W) fun p p' hp => ?_
  refine Sim.bind2 (contains_sim W.heap hp i) fun c c' e => ?_
  subst e
  refine Sim.ite (fun _ => ?_) fun _ => ?_
  · intro x e
    cases hm : derefMut w.heap p with
    | error _ => rw [hm] at e; cases e
    | ok an =>
      obtain ⟨⟨a', b⟩, hb, q⟩ := derefMut_sim W.heap hp an hm
      obtain ⟨a, n⟩ := an
      obtain ⟨ha, r, -, -⟩ := q
      rw [hm, bind_ok] at e
      rw [hb, bind_ok, denseOf_ok W.heap hp (deref_of_mut hm)]
      revert x
      refine Sim.same fun d _ => ?_
      exact SimW.ok ⟨⟨W.heap, W.root, .cell d ha⟩, rfl⟩
  · have key : ∀ (ρ' : Ren) (x : Heap × Nat) (y : BHeap × Nat), Ren.le ρ ρ' →
        (HeapRep ρ' F x.1 y.1 ∧ ρ' x.2 = some y.2) →
        SimW ρ' (fun ρ' x y => WRep ρ' F x.1 y.1 ∧ x.2 = y.2)
          (do
            let (h, d, a) ← Dense.nodeInsert x.1 .branch p i (.ptr (.heap x.2))
            let w ← { w with heap := h }.write (.heap a)
            return ({ w with slot := .cell a d }, false))
          (do
            let (h, d, a) ← nodeInsert y.1 .branch p' i (.ptr (.heap y.2))
            let w ← { bw with heap := h }.write (.heap a)
            return ({ w with slot := .cell a d }, false)) := by
      rintro ρ' ⟨h, c⟩ ⟨bh, c'⟩ le ⟨H, hc⟩
      refine SimW.bind (nodeInsert_sim H (hp.mono le) i (.ptr _ _ (.heap hc))) fun ρ2 x y le2 q => ?_
      obtain ⟨h1, d, a⟩ := x
      obtain ⟨bh1, d', a'⟩ := y
      obtain ⟨H1, hd, ha⟩ := q
      simp only at H1 hd ha
      subst hd
      refine Sim.bind (write_sim (w := { w with heap := h1 }) (bw := { bw with heap := bh1 })
        ⟨H1, W.root.mono (le.trans le2), W.slot.mono (le.trans le2)⟩ (.heap ha)) fun x y q => ?_
      exact SimW.ok ⟨⟨q.heap, q.root, .cell d ha⟩, rfl⟩
    by_cases hN : N = D - 2
    · simp only [if_pos hN]
      exact SimW.bind (nodeNew_sim W.heap (by decide) (.idx 0 (by decide))) key
    · simp only [if_neg hN]
      refine Sim.same fun e he => ?_
      exact SimW.bind (nodeNew_sim W.heap (by decide) (.ptr e e (emptyNode_rel he ρ))) key

variable {t : DT α} {bt : BT α}

theorem insertWalk_sim (D : Nat) (indices : List Nat) (T : TRep ρ F t bt) :
    SimW ρ (fun ρ' => WRep ρ' F) (Dense.insertWalk D t indices) (insertWalk D bt indices) := by
  unfold Dense.insertWalk insertWalk
  refine SimW.bind (constLoop_sim (Q := fun ρ => WRep ρ F) 0 (D - 1)
    (fun ρ s t i q => insertStep_sim D indices i q) ⟨T.heap, T.root, .root⟩) fun ρ' x y le q => ?_
  exact SimW.ok q.1

theorem getOrInsertImpl_sim (D : Nat) (T : TRep ρ F t bt) (index : Nat) (ins : Bool) (value : α) :
    SimW ρ (fun ρ' => ORep ρ' F) (Dense.getOrInsertImpl D t index ins value)
      (getOrInsertImpl D bt index ins value) := by
  unfold Dense.getOrInsertImpl getOrInsertImpl
  refine Sim.same fun indices _ => ?_
  refine SimW.bind (insertWalk_sim D indices T) fun ρ' w bw le W => ?_
  refine Sim.bind (read_sim W) fun p p' hp => ?_
  refine Sim.same fun i _ => ?_
  refine Sim.bind2 (contains_sim W.heap hp i) fun c c' e => ?_
  subst e
  refine Sim.ite (fun _ => ?_) fun _ => ?_
  · refine Sim.bind2 (getChildIdx_sim W.heap hp i) fun d d' e => ?_
    subst e
    simp only [T.data]
    refine Sim.ite (fun _ => ?_) fun _ => ?_
    · refine Sim.same fun old _ => ?_
      refine Sim.same fun old _ => ?_
      refine Sim.same fun data _ => ?_
      exact SimW.ok ⟨⟨W.heap, W.root, rfl, T.keys⟩, rfl, rfl, rfl⟩
    · refine Sim.same fun old _ => ?_
      refine Sim.same fun _ _ => ?_
      exact SimW.ok ⟨⟨W.heap, W.root, rfl, T.keys⟩, rfl, rfl, rfl⟩
  · simp only [T.data]
    refine SimW.bind (nodeInsert_sim W.heap hp i (.idx _ (Nat.mod_lt _ (by decide))))
      fun ρ2 x y le2 q => ?_
    obtain ⟨h1, d, a⟩ := x
    obtain ⟨bh1, d', a'⟩ := y
    obtain ⟨H1, -, ha⟩ := q
    simp only at H1 ha
    refine Sim.bind (write_sim (w := { w with heap := h1 }) (bw := { bw with heap := bh1 })
      ⟨H1, W.root.mono le2, W.slot.mono le2⟩ (.heap ha)) fun x y q => ?_
    exact SimW.ok ⟨⟨q.heap, q.root, rfl, by simp only [T.keys]⟩, rfl, rfl, rfl⟩

theorem insert_sim (D : Nat) (T : TRep ρ F t bt) (index : Nat) (value : α) :
    SimW ρ (fun ρ' => ORep ρ' F) (Dense.insert D t index value) (insert D bt index value) :=
  Sim.same fun _ _ => getOrInsertImpl_sim D T _ _ _

theorem getOrInsert_sim (D : Nat) (T : TRep ρ F t bt) (index : Nat) (value : α) :
    SimW ρ (fun ρ' => ORep ρ' F) (Dense.getOrInsert D t index value) (getOrInsert D bt index value) :=
  Sim.same fun _ _ => getOrInsertImpl_sim D T _ _ _

/-! ## Removal -/

/-- Lists of corresponding pointers. -/
inductive PtrsRel (ρ : Ren) : List Ptr → List Ptr → Prop
  | nil : PtrsRel ρ [] []
  | cons {p p' : Ptr} {l l' : List Ptr} : PtrRel ρ p p' → PtrsRel ρ l l' → PtrsRel ρ (p :: l) (p' :: l')

theorem PtrsRel.get {l l' : List Ptr} (h : PtrsRel ρ l l') : ∀ (i : Nat) (p : Ptr), l[i]? = some p →
    ∃ p', l'[i]? = some p' ∧ PtrRel ρ p p' := by
  induction h with
  | nil => intro i p hp; simp at hp
  | cons hp _ ih =>
    intro i p e
    cases i with
    | zero => simp only [List.getElem?_cons_zero, Option.some.injEq] at e ⊢; subst e; exact ⟨_, rfl, hp⟩
    | succ i => simp only [List.getElem?_cons_succ] at e ⊢; exact ih i p e

theorem PtrsRel.length {l l' : List Ptr} (h : PtrsRel ρ l l') : l'.length = l.length := by
  induction h with
  | nil => rfl
  | cons _ _ ih => simp [ih]

theorem PtrsRel.mono {ρ ρ' : Ren} {l l' : List Ptr} (h : PtrsRel ρ l l') (le : Ren.le ρ ρ') :
    PtrsRel ρ' l l' := by
  induction h with
  | nil => exact .nil
  | cons hp _ ih => exact .cons (hp.mono le) ih

theorem PtrsRel.append {l l' : List Ptr} (h : PtrsRel ρ l l') {m m' : List Ptr} (h2 : PtrsRel ρ m m') :
    PtrsRel ρ (l ++ m) (l' ++ m') := by
  induction h with
  | nil => exact h2
  | cons hp _ ih => exact .cons hp ih

theorem PtrsRel.last {l l' : List Ptr} (h : PtrsRel ρ l l') :
    Sim (PtrRel ρ) (unwrapU l.getLast?) (unwrapU l'.getLast?) := by
  intro p e
  have e := unwrapU_eq_ok e
  rw [List.getLast?_eq_getElem?] at e
  obtain ⟨p', e', hp⟩ := h.get _ p e
  refine ⟨p', ?_, hp⟩
  rw [List.getLast?_eq_getElem?, h.length, e']
  rfl

theorem PtrsRel.getP {l l' : List Ptr} (h : PtrsRel ρ l l') (i : Nat) :
    Sim (PtrRel ρ) (Hibit.getP l i) (Hibit.getP l' i) := by
  intro p e
  unfold Hibit.getP at e ⊢
  cases hl : l[i]? with
  | none => rw [hl] at e; cases e
  | some q =>
    rw [hl] at e
    cases e
    obtain ⟨p', e', hp⟩ := h.get _ _ hl
    rw [e']
    exact ⟨p', rfl, hp⟩

variable {h : Heap} {bh : BHeap}

theorem branchLoop_sim (H : HeapRep ρ F h bh) (indices : List Nat) :
    ∀ (ns : List Nat) {p p' : Ptr} (_ : PtrRel ρ p p'),
      Sim (PtrsRel ρ) (Dense.branchLoop h indices ns p) (branchLoop bh indices ns p')
  | [], _, _, _ => Sim.ok .nil
  | n :: ns, p, p', hp => by
    unfold Dense.branchLoop branchLoop
    refine Sim.same fun i _ => ?_
    refine Sim.bind2 (getChildPtr_sim H hp i) fun q q' hq => ?_
    refine Sim.bind (branchLoop_sim H indices ns hq) fun r r' hr => ?_
    exact Sim.ok (.cons hq hr)

theorem terminalLoop_sim (H : HeapRep ρ F h bh) (indices : List Nat) :
    ∀ (ns : List Nat) {p p' : Ptr} (_ : PtrRel ρ p p'),
      Sim (PtrRel ρ) (Dense.terminalLoop h indices ns p) (terminalLoop bh indices ns p')
  | [], _, _, hp => Sim.ok hp
  | n :: ns, p, p', hp => by
    unfold Dense.terminalLoop terminalLoop
    refine Sim.same fun i _ => ?_
    refine Sim.bind2 (getChildPtr_sim H hp i) fun q q' hq => ?_
    exact terminalLoop_sim H indices ns hq

theorem getTerminalNode_sim (D : Nat) (H : HeapRep ρ F h bh) {root root' : Ptr} (hr : PtrRel ρ root root')
    (indices : List Nat) :
    Sim (fun x y => PtrRel ρ x.1 y.1 ∧ x.2 = y.2) (Dense.getTerminalNode D h root indices)
      (getTerminalNode D bh root' indices) := by
  unfold Dense.getTerminalNode getTerminalNode
  refine Sim.bind (terminalLoop_sim H indices _ hr) fun q q' hq => ?_
  refine Sim.same fun i _ => ?_
  exact Sim.ok ⟨hq, rfl⟩

theorem climbStep_sim {root root' : Ptr} (hr : PtrRel ρ root root') {branch branch' : List Ptr}
    (hb : PtrsRel ρ branch branch') (indices : List Nat) (N : Nat) (H : HeapRep ρ F h bh) :
    Sim (fun x y => HeapRep ρ F x.1 y.1 ∧ x.2 = y.2)
      (Dense.climbStep root branch indices h N) (climbStep root' branch' indices bh N) := by
  unfold Dense.climbStep climbStep
  have key : ∀ node node' : Ptr, PtrRel ρ node node' → Sim (fun x y => HeapRep ρ F x.1 y.1 ∧ x.2 = y.2)
      (do
        let i ← getP indices N
        let h ← Dense.nodeRemove h .branch node i
        let n ← deref h node
        if n.len ≠ 1 then return (h, true)
        else if N ≠ 0 then
          let h ← Dense.dropNode h .branch node
          return (h, false)
        else return (h, false))
      (do
        let i ← getP indices N
        let h ← nodeRemove bh .branch node' i
        let len ← lenOf h node'
        if len ≠ 1 then return (h, true)
        else if N ≠ 0 then
          let h ← dropNode h .branch node'
          return (h, false)
        else return (h, false)) := by
    intro node node' hn
    refine Sim.same fun i _ => ?_
    refine Sim.bind (nodeRemove_sim H .branch hn i) fun h1 bh1 H1 => ?_
    refine Sim.bindF (φ := Node.len) (lenOf_sim H1 hn) fun n => ?_
    refine Sim.ite (fun _ => Sim.ok ⟨H1, rfl⟩) fun _ => ?_
    refine Sim.ite (fun _ => ?_) fun _ => Sim.ok ⟨H1, rfl⟩
    refine Sim.bind (dropNode_sim H1 .branch hn) fun h2 bh2 H2 => ?_
    exact Sim.ok ⟨H2, rfl⟩
  by_cases hN : N = 0
  · simp only [if_pos hN]; exact key _ _ hr
  · simp only [if_neg hN]
    exact Sim.bind (hb.getP (N - 1)) key

theorem removeKey_sim (D : Nat) (T : TRep ρ F t bt) (index dataIndex : Nat) :
    Sim (TRep ρ F) (Dense.removeKey D t index dataIndex) (removeKey D bt index dataIndex) := by
  unfold Dense.removeKey removeKey
  simp only [T.keys]
  refine Sim.same fun lastKey _ => ?_
  refine Sim.ite (fun _ => ?_) fun _ => Sim.ok ⟨T.heap, T.root, T.data, rfl⟩
  refine Sim.same fun keys _ => ?_
  refine Sim.same fun indices _ => ?_
  refine Sim.bind (getTerminalNode_sim D T.heap T.root indices) fun x y e => ?_
  obtain ⟨node, inner⟩ := x
  obtain ⟨node', inner'⟩ := y
  obtain ⟨hn, e⟩ := e
  simp only at hn e
  subst e
  refine Sim.bind (setChild_sim T.heap hn inner (.idx _ (Nat.mod_lt _ (by decide)))) fun h bh H => ?_
  exact Sim.ok ⟨H, T.root, T.data, rfl⟩

theorem removeCell_sim (D : Nat) (T : TRep ρ F t bt) (indices : List Nat) {branch branch' : List Ptr}
    (hb : PtrsRel ρ branch branch') {terminal terminal' : Ptr} (ht : PtrRel ρ terminal terminal')
    (inner : Nat) :
    Sim (HeapRep ρ F) (Dense.removeCell D t indices branch terminal inner)
      (removeCell D bt indices branch' terminal' inner) := by
  unfold Dense.removeCell removeCell
  refine Sim.bind (nodeRemove_sim T.heap .term ht inner) fun h bh H => ?_
  refine Sim.bindF (φ := Node.len) (lenOf_sim H ht) fun n => ?_
  refine Sim.ite (fun _ => ?_) fun _ => Sim.ok H
  refine Sim.bind (dropNode_sim H .term ht) fun h1 bh1 H1 => ?_
  refine Sim.bind (constLoopRev_sim (Q := HeapRep ρ F) 0 (D - 1)
    (fun s t' i q => climbStep_sim T.root hb indices i q) H1) fun x y q => ?_
  exact Sim.ok q.1

theorem remove_sim (D : Nat) (T : TRep ρ F t bt) (index : Nat) :
    Sim (fun x y => TRep ρ F x.1 y.1 ∧ x.2 = y.2) (Dense.remove D t index) (remove D bt index) := by
  unfold Dense.remove remove Dense.getBranch getBranch
  refine Sim.same fun index _ => ?_
  refine Sim.same fun indices _ => ?_
  refine Sim.bind (branchLoop_sim T.heap indices _ T.root) fun br br' hb => ?_
  refine Sim.bind hb.last fun terminal terminal' ht => ?_
  refine Sim.same fun inner _ => ?_
  refine Sim.bind2 (getChildIdx_sim T.heap ht inner) fun d d' e => ?_
  subst e
  rw [T.keys]
  refine Sim.same fun key _ => ?_
  refine Sim.ite (fun _ => ?_) fun _ => Sim.ok ⟨T, rfl⟩
  refine Sim.bind (removeCell_sim D T indices hb ht inner) fun h bh H => ?_
  refine Sim.bind (removeKey_sim D (t := { t with heap := h })
    (bt := { bt with heap := bh, keys := t.keys }) ⟨H, T.root, T.data, rfl⟩ index d) fun t1 bt1 T1 => ?_
  rw [T1.data]
  refine Sim.same fun x _ => ?_
  exact Sim.ok ⟨⟨T1.heap, T1.root, rfl, T1.keys⟩, rfl⟩

/-! ## Destruction -/

theorem dropNodeWithChilds_sim : ∀ (r : Nat) {h : Heap} {bh : BHeap} (_ : HeapRep ρ F h bh) {p p' : Ptr}
    (_ : PtrRel ρ p p'),
    Sim (HeapRep ρ F) (Dense.dropNodeWithChilds r h p) (dropNodeWithChilds r bh p')
  | 0, _, _, _, _, _, _ => Sim.err
  | 1, _, _, H, _, _, hp => by
    unfold Dense.dropNodeWithChilds dropNodeWithChilds
    exact dropNode_sim H .term hp
  | r + 2, h, bh, H, p, p', hp => by
    unfold Dense.dropNodeWithChilds dropNodeWithChilds
    refine Sim.bindF (φ := Node.mask) (maskOf_sim H hp) fun n => ?_
    refine Sim.bind (foldlM_sim (Q := HeapRep ρ F) (fun h1 bh1 i H1 => ?_) _ h bh H) fun h2 bh2 H2 =>
      dropNode_sim H2 .branch hp
    refine Sim.bind2 (getChildPtr_sim H1 hp i) fun q q' hq => ?_
    exact dropNodeWithChilds_sim (r + 1) H1 hq

theorem dropImpl_sim (D : Nat) (T : TRep ρ F t bt) :
    Sim (fun x y => x.1 = y.1 ∧ HeapRep ρ F x.2 y.2) (Dense.dropImpl D t) (dropImpl D bt) := by
  unfold Dense.dropImpl dropImpl
  rw [T.data]
  refine Sim.ite (fun _ => ?_) fun _ => Sim.err
  refine Sim.same fun vs _ => ?_
  refine Sim.bind (dropNodeWithChilds_sim D T.heap T.root) fun h bh H => ?_
  exact Sim.ok ⟨rfl, H⟩

/-- When the tree is gone, the memory is what it was without it. -/
theorem HeapRep.gone (H : HeapRep ρ F h bh) (hf : ∀ a, h.node a = none) : bh.block = F :=
  funext fun x => H.frame x fun a n e => by rw [hf a] at e; cases e

/-! ## Reading -/

theorem treeData_sim (D : Nat) (T : TRep ρ F t bt) (index : Nat) (indices : List Nat) :
    Sim Eq (Dense.treeData D t index indices) (treeData D bt index indices) := by
  unfold Dense.treeData treeData
  rw [T.keys, T.data]
  refine Sim.bind (getTerminalNode_sim D T.heap T.root indices) fun x y e => ?_
  obtain ⟨node, inner⟩ := x
  obtain ⟨node', inner'⟩ := y
  obtain ⟨hn, e⟩ := e
  simp only at hn e
  subst e
  refine Sim.bind2 (getChildIdx_sim T.heap hn inner) fun d d' e => ?_
  subst e
  exact Sim.refl

/-- The cached pointers correspond. -/
inductive OptRel (ρ : Ren) : Option Ptr → Option Ptr → Prop
  | none : OptRel ρ .none .none
  | some {p p' : Ptr} : PtrRel ρ p p' → OptRel ρ (.some p) (.some p')

/-- The cursors correspond. -/
structure CurRel (ρ : Ren) (c c' : Cursor) : Prop where
  len : c'.length = c.length
  get : ∀ (i : Nat) (o : Option Ptr), c[i]? = some o → ∃ o', c'[i]? = some o' ∧ OptRel ρ o o'

theorem CurRel.ptr {c c' : Cursor} (K : CurRel ρ c c') (i : Nat) :
    Sim (PtrRel ρ) (do let o ← getU c i; unwrapU o) (do let o ← getU c' i; unwrapU o) := by
  intro p e
  unfold getU at e ⊢
  cases hc : c[i]? with
  | none => rw [hc] at e; cases e
  | some o =>
    obtain ⟨o', e', r⟩ := K.get i o hc
    rw [hc] at e
    rw [e']
    cases r with
    | none => cases e
    | some r => cases e; exact ⟨_, rfl, r⟩

theorem CurRel.lastPtr {c c' : Cursor} (K : CurRel ρ c c') :
    Sim (PtrRel ρ) (do let o ← unwrapU c.getLast?; unwrapU o)
      (do let o ← unwrapU c'.getLast?; unwrapU o) := by
  have := K.ptr (c.length - 1)
  simp only [List.getLast?_eq_getElem?, K.len]
  unfold getU at this
  cases hc : c[c.length - 1]? with
  | none => exact Sim.err
  | some o =>
    obtain ⟨o', e', r⟩ := K.get _ o hc
    rw [hc, e'] at this
    rw [e']
    exact this

theorem CurRel.set {c c' : Cursor} (K : CurRel ρ c c') (i : Nat) {p p' : Ptr} (hp : PtrRel ρ p p') :
    Sim (CurRel ρ) (setU c i (some p)) (setU c' i (some p')) := by
  unfold setU
  rw [K.len]
  refine Sim.ite (fun hi => ?_) fun _ => Sim.err
  refine Sim.ok ⟨by simp [K.len], fun j o e => ?_⟩
  rw [List.getElem?_set] at e ⊢
  rw [K.len]
  by_cases hij : i = j
  · rw [if_pos hij, if_pos hi] at e
    rw [if_pos hij, if_pos hi]
    cases e
    exact ⟨_, rfl, .some hp⟩
  · rw [if_neg hij] at e ⊢
    exact K.get j o e

theorem CurRel.new (n : Nat) : CurRel ρ (List.replicate n none) (List.replicate n none) := by
  refine ⟨rfl, fun i o e => ⟨o, e, ?_⟩⟩
  rw [List.getElem?_replicate] at e
  split at e <;> cases e
  exact .none

variable {c c' : Cursor}

theorem prevNode_sim (T : TRep ρ F t bt) (K : CurRel ρ c c') (n : Nat) :
    Sim (PtrRel ρ) (Dense.prevNode c t n) (prevNode c' bt n) := by
  unfold prevNode Dense.prevNode
  exact Sim.ite (fun _ => Sim.ok T.root) fun _ => K.ptr _

theorem curTerminal_sim (D : Nat) (T : TRep ρ F t bt) (K : CurRel ρ c c') :
    Sim (PtrRel ρ) (Dense.curTerminal D c t) (curTerminal D c' bt) := by
  unfold curTerminal Dense.curTerminal
  exact Sim.ite (fun _ => Sim.ok T.root) fun _ => K.lastPtr

/-- Results of a selection correspond. -/
def SelRel (ρ : Ren) (x y : Mask × Cursor) : Prop := x.1 = y.1 ∧ CurRel ρ x.2 y.2

theorem selRoot_sim (T : TRep ρ F t bt) (K : CurRel ρ c c') : Sim (SelRel ρ)
    (do let n ← deref t.heap t.root; return (([n.mask] : Mask), c))
    (do let m ← maskOf bt.heap bt.root; return ([m], c')) :=
  Sim.bindF (φ := Node.mask) (maskOf_sim T.heap T.root) fun _ => Sim.ok ⟨rfl, K⟩

theorem selNode_sim (T : TRep ρ F t bt) (K : CurRel ρ c c') (n : Nat) {node node' : Ptr}
    (hn : PtrRel ρ node node') : Sim (SelRel ρ)
    (do
      let c ← setU c (n - 1) (some node)
      let nn ← deref t.heap node
      return (([nn.mask] : Mask), c))
    (do
      let c ← setU c' (n - 1) (some node')
      let m ← maskOf bt.heap node'
      return ([m], c)) := by
  refine Sim.bind (K.set _ hn) fun c1 c1' K1 => ?_
  exact Sim.bindF (φ := Node.mask) (maskOf_sim T.heap hn) fun _ => Sim.ok ⟨rfl, K1⟩

theorem curSelect_sim (D : Nat) (T : TRep ρ F t bt) (K : CurRel ρ c c') (n i : Nat) :
    Sim (SelRel ρ) (Dense.curSelect D c t n i) (curSelect D c' bt n i) := by
  unfold Dense.curSelect curSelect
  refine Sim.ite (fun _ => selRoot_sim T K) fun _ => ?_
  refine Sim.bind (prevNode_sim T K n) fun prev prev' hp => ?_
  refine Sim.bind2 (contains_sim T.heap hp i) fun b b' e => ?_
  subst e
  refine Sim.bind2 (getChildPtr_sim T.heap hp i) fun node node' hn => ?_
  refine Sim.ite (fun _ => selNode_sim T K n hn) fun _ => ?_
  exact Sim.same fun e he => selNode_sim T K n (emptyNode_rel he ρ)

theorem curSelectU_sim (T : TRep ρ F t bt) (K : CurRel ρ c c') (n i : Nat) :
    Sim (SelRel ρ) (Dense.curSelectU c t n i) (curSelectU c' bt n i) := by
  unfold Dense.curSelectU curSelectU
  refine Sim.ite (fun _ => selRoot_sim T K) fun _ => ?_
  refine Sim.bind (prevNode_sim T K n) fun prev prev' hp => ?_
  exact Sim.bind2 (getChildPtr_sim T.heap hp i) fun node node' hn => selNode_sim T K n hn

theorem curData_sim (D : Nat) (T : TRep ρ F t bt) (K : CurRel ρ c c') (i : Nat) :
    Sim Eq (Dense.curData D c t i) (curData D c' bt i) := by
  unfold Dense.curData curData
  rw [T.data]
  refine Sim.bind (curTerminal_sim D T K) fun node node' hn => ?_
  refine Sim.bind2 (contains_sim T.heap hn i) fun b b' e => ?_
  subst e
  refine Sim.ite (fun _ => ?_) fun _ => Sim.refl
  refine Sim.bind2 (getChildIdx_sim T.heap hn i) fun d d' e => ?_
  subst e
  exact Sim.refl

theorem curDataU_sim (D : Nat) (T : TRep ρ F t bt) (K : CurRel ρ c c') (i : Nat) :
    Sim Eq (Dense.curDataU D c t i) (curDataU D c' bt i) := by
  unfold Dense.curDataU curDataU
  rw [T.data]
  refine Sim.bind (curTerminal_sim D T K) fun node node' hn => ?_
  refine Sim.bind2 (getChildIdx_sim T.heap hn i) fun d d' e => ?_
  subst e
  exact Sim.refl

theorem get_sim (D : Nat) (T : TRep ρ F t bt) (k : Nat) :
    Sim Eq ((Dense.impl α D).get t k) ((impl α D).get bt k) :=
  Sim.same fun _ _ => Sim.same fun _ _ => treeData_sim D T _ _

/-- The relation of byte cursors to positions that a relation of cell cursors induces. -/
def renCur (ρ : Ren) (K : CursorRel Cursor) : CursorRel Cursor where
  inv := fun c' => ∃ c, CurRel ρ c c' ∧ K.inv c
  pos := fun c' p => ∃ c, CurRel ρ c c' ∧ K.pos c p
  posC := fun c' p => ∃ c, CurRel ρ c c' ∧ K.posC c p

/-- A contract proved about the cell tree holds of the byte tree, whatever is claimed of exactness. -/
theorem lawfulC_sim {D : Nat} {e : Bool} (T : TRep ρ F t bt) {TS : TreeSpec α} {K : CursorRel Cursor}
    (L : LawfulC { Dense.impl α D with exact := e } t TS K) :
    LawfulC { impl α D with exact := e } bt TS (renCur ρ K) where
  cfg := L.cfg
  wf := L.wf
  data_eq := fun p h1 h2 => (treeData_sim D T _ _).eq (L.data_eq p h1 h2)
  dataU_eq := fun p d h1 h2 h3 => by
    have e : Sim Eq ((Dense.impl α D).dataU t (unpath (width 1) p) p)
        ((impl α D).dataU bt (unpath (width 1) p) p) := by
      refine Sim.bind (treeData_sim D T _ _) fun a b e => ?_
      subst e
      exact Sim.refl
    exact e.eq (L.dataU_eq p d h1 h2 h3)
  new_ok := by
    obtain ⟨c, e, hc⟩ := L.new_ok
    cases e
    exact ⟨_, rfl, _, CurRel.new _, hc⟩
  pos_inv := fun c' p ⟨c, K1, h⟩ => ⟨c, K1, L.pos_inv c p h⟩
  posC_pos := fun c' p ⟨c, K1, h⟩ => ⟨c, K1, L.posC_pos c p h⟩
  pos_take := fun c' p n ⟨c, K1, h⟩ => ⟨c, K1, L.pos_take c p n h⟩
  select_root := fun c' i h1 h2 => by
    obtain ⟨c, K1, h1⟩ := h1
    obtain ⟨m, c1, e, r⟩ := L.select_root c i h1 h2
    obtain ⟨⟨m', c1'⟩, e', q1, q2⟩ := curSelect_sim D T K1 0 i _ e
    simp only at q1
    subst q1
    exact ⟨m, c1', e', r.1, r.2.1, c1, q2, r.2.2⟩
  selectU_root := fun c' i h1 h2 => by
    obtain ⟨c, K1, h1⟩ := h1
    obtain ⟨m, c1, e, r⟩ := L.selectU_root c i h1 h2
    obtain ⟨⟨m', c1'⟩, e', q1, q2⟩ := curSelectU_sim T K1 0 i _ e
    simp only at q1
    subst q1
    exact ⟨m, c1', e', r.1, r.2.1, c1, q2, r.2.2⟩
  select_node := fun c' p i h1 h2 h3 h4 => by
    obtain ⟨c, K1, h1⟩ := h1
    obtain ⟨m, c1, e, r⟩ := L.select_node c p i h1 h2 h3 h4
    obtain ⟨⟨m', c1'⟩, e', q1, q2⟩ := curSelect_sim D T K1 (p.length + 1) i _ e
    simp only at q1
    subst q1
    exact ⟨m, c1', e', r.1, r.2.1, c1, q2, r.2.2⟩
  selectU_node := fun c' p i h1 h2 h3 h4 h5 => by
    obtain ⟨c, K1, h1⟩ := h1
    obtain ⟨m, c1, e, r⟩ := L.selectU_node c p i h1 h2 h3 h4 h5
    obtain ⟨⟨m', c1'⟩, e', q1, q2⟩ := curSelectU_sim T K1 (p.length + 1) i _ e
    simp only at q1
    subst q1
    exact ⟨m, c1', e', r.1, r.2.1, c1, q2, r.2.2⟩
  curDataU_eq := fun c' p i d h1 h2 h3 h4 h5 => by
    obtain ⟨c, K1, h1⟩ := h1
    exact (curDataU_sim D T K1 i).eq (L.curDataU_eq c p i d h1 h2 h3 h4 h5)
  curData_eq := fun c' p i h1 h2 h3 h4 => by
    obtain ⟨c, K1, h1⟩ := h1
    exact (curData_sim D T K1 i).eq (L.curData_eq c p i h1 h2 h3 h4)

/-! ## Histories -/

theorem keyValues_eq (T : TRep ρ F t bt) : keyValues bt = Dense.keyValues t := by
  unfold keyValues Dense.keyValues
  rw [T.keys, T.data]

/-- Trees and results of operations correspond. -/
def StepRel {X : Type} (F : Mem) (ρ : Ren) (x : DT α × X) (y : BT α × X) : Prop :=
  TRep ρ F x.1 y.1 ∧ x.2 = y.2

theorem step_sim (D : Nat) (T : TRep ρ F t bt) (op : Op α) :
    SimW ρ (StepRel F) (Dense.step D t op) (step D bt op) := by
  cases op with
  | insert k v =>
    refine SimW.bind (insert_sim D T k v) fun ρ' o bo _ O => ?_
    exact SimW.ok ⟨O.tree, by rw [O.dropped]⟩
  | getOrInsert k dflt g =>
    refine SimW.bind (getOrInsert_sim D T k dflt) fun ρ' o bo _ O => ?_
    rw [O.dropped]
    have e : Sim (StepRel F ρ') (Dense.writeRef o.tree o.dataIndex g)
        (writeRef bo.tree bo.dataIndex g) := by
      unfold Dense.writeRef writeRef
      rw [O.tree.data, O.dataIndex]
      refine Sim.same fun old _ => ?_
      refine Sim.same fun old _ => ?_
      refine Sim.same fun data _ => ?_
      exact Sim.ok ⟨⟨O.tree.heap, O.tree.root, rfl, O.tree.keys⟩, rfl⟩
    refine Sim.bind e fun x y q => ?_
    obtain ⟨x1, x2⟩ := x
    obtain ⟨y1, y2⟩ := y
    obtain ⟨q1, e⟩ := q
    cases e
    exact SimW.ok ⟨q1, rfl⟩
  | remove k =>
    refine Sim.bind (remove_sim D T k) fun x y q => ?_
    obtain ⟨x1, x2⟩ := x
    obtain ⟨y1, y2⟩ := y
    obtain ⟨q1, rfl⟩ := q
    exact SimW.ok ⟨q1, rfl⟩
  | get k =>
    refine Sim.bind (get_sim D T k) fun x y q => ?_
    subst q
    exact SimW.ok ⟨T, rfl⟩
  | mutValues g =>
    have e : Sim (TRep ρ F) (Dense.mutValues t g) (mutValues bt g) := by
      unfold Dense.mutValues mutValues
      rw [keyValues_eq T, T.data]
      refine Sim.same fun x _ => ?_
      exact Sim.ok ⟨T.heap, T.root, rfl, T.keys⟩
    exact Sim.bind e fun x y q => SimW.ok ⟨q, rfl⟩

/-- The same history runs on bytes, with the same results. -/
theorem run_sim (D : Nat) : ∀ (ops : List (Op α)) {ρ : Ren} {t : DT α} {bt : BT α} (_ : TRep ρ F t bt),
    SimW ρ (StepRel F) (Dense.run D t ops) (run D bt ops)
  | [], _, _, _, T => SimW.ok ⟨T, rfl⟩
  | op :: ops, _, _, _, T => by
    unfold Dense.run run
    refine SimW.bind (step_sim D T op) fun ρ' x y _ q => ?_
    obtain ⟨x1, x2⟩ := x
    obtain ⟨y1, y2⟩ := y
    obtain ⟨q1, e⟩ := q
    cases e
    refine SimW.bind (run_sim D ops q1) fun ρ2 x y _ q => ?_
    obtain ⟨x1, x2⟩ := x
    obtain ⟨y1, y2⟩ := y
    obtain ⟨q1, e⟩ := q
    cases e
    exact SimW.ok ⟨q1, rfl⟩

end Hibit.Bytes
