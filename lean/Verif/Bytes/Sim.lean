import Verif.Bytes.Mem
/-!
# The byte model simulates the cell model: nodes
-/
namespace Hibit.Bytes
open Hibit Hibit.Dense

/-! ## Simulation of computations -/

/-- Whenever `x` succeeds, `y` succeeds with a related result. -/
def Sim {A B : Type} (Q : A → B → Prop) (x : R A) (y : R B) : Prop :=
  ∀ a, x = .ok a → ∃ b, y = .ok b ∧ Q a b

section
variable {A B A' B' : Type} {Q : A → B → Prop} {Q' : A' → B' → Prop}

theorem Sim.ok {a : A} {b : B} (h : Q a b) : Sim Q (.ok a) (.ok b) :=
  fun _ e => by cases e; exact ⟨b, rfl, h⟩

theorem Sim.err {e : Err} {y : R B} : Sim Q (.error e) y := fun _ h => by cases h

theorem Sim.bind {x : R A} {y : R B} {f : A → R A'} {g : B → R B'} (h : Sim Q x y)
    (hf : ∀ a b, Q a b → Sim Q' (f a) (g b)) : Sim Q' (x >>= f) (y >>= g) := by
  intro r hr
  match x, h, hr with
  | .ok a, h, hr =>
    obtain ⟨b, hb, q⟩ := h a rfl
    rw [hb]
    exact hf a b q r hr
  | .error _, _, hr => cases hr

theorem Sim.same {X : Type} {x : R X} {f : X → R A'} {g : X → R B'}
    (hf : ∀ a, x = .ok a → Sim Q' (f a) (g a)) : Sim Q' (x >>= f) (x >>= g) := by
  intro r hr
  match x, hf, hr with
  | .ok a, hf, hr => exact hf a rfl r hr
  | .error _, _, hr => cases hr

theorem Sim.refl {X : Type} {x : R X} : Sim Eq x x := fun a e => ⟨a, e, rfl⟩

theorem Sim.mono {Q2 : A → B → Prop} {x : R A} {y : R B} (h : Sim Q x y)
    (hq : ∀ a b, Q a b → Q2 a b) : Sim Q2 x y := fun a e =>
  have ⟨b, hb, q⟩ := h a e
  ⟨b, hb, hq a b q⟩

theorem Sim.ite {p : Prop} [Decidable p] {x x' : R A} {y y' : R B} (h1 : p → Sim Q x y)
    (h2 : ¬ p → Sim Q x' y') : Sim Q (if p then x else x') (if p then y else y') := by
  by_cases h : p
  · rw [if_pos h, if_pos h]; exact h1 h
  · rw [if_neg h, if_neg h]; exact h2 h

/-- Read off the result when both sides have the same type and equal results. -/
theorem Sim.eq {X : Type} {x y : R X} {a : X} (h : Sim Eq x y) (e : x = .ok a) : y = .ok a := by
  obtain ⟨b, hb, rfl⟩ := h a e
  exact hb

end

/-! ## Representation

The cell model never reuses an address. A ghost renaming `ρ` says which address of the byte memory stands
for an address of the cell model; several cell addresses may be renamed to the same byte address as
long as only one of them is live. -/

/-- A partial renaming of addresses. -/
abbrev Ren := Nat → Option Nat

/-- `ρ'` knows all that `ρ` knows. -/
def Ren.le (ρ ρ' : Ren) : Prop := ∀ a a', ρ a = some a' → ρ' a = some a'

theorem Ren.le.refl (ρ : Ren) : Ren.le ρ ρ := fun _ _ h => h
theorem Ren.le.trans {ρ ρ' ρ2 : Ren} (h : Ren.le ρ ρ') (h2 : Ren.le ρ' ρ2) : Ren.le ρ ρ2 :=
  fun a a' e => h2 a a' (h a a' e)

/-- The pointers correspond. -/
inductive PtrRel (ρ : Ren) : Ptr → Ptr → Prop
  | heap {a a' : Nat} : ρ a = some a' → PtrRel ρ (.heap a) (.heap a')
  | stat (i : Nat) : PtrRel ρ (.stat i) (.stat i)

theorem PtrRel.mono {ρ ρ' : Ren} {p p' : Ptr} (h : PtrRel ρ p p') (le : Ren.le ρ ρ') : PtrRel ρ' p p' := by
  cases h with
  | heap e => exact .heap (le _ _ e)
  | stat i => exact .stat i

/-- Block `b` holds the child `c` of type `k` at position `i`. -/
def CellAt (ρ : Ren) (k : Kind) (b : Block) (i : Nat) : Cell → Prop
  | .uninit => True
  | .ptr p => k = .branch ∧ ∃ p', PtrRel ρ p p' ∧ At b (childOff k i) (ptrBytes p')
  | .idx v => k = .term ∧ v < 2 ^ 32 ∧ At b (childOff k i) (leBytes 4 v)

theorem CellAt.mono {ρ ρ' : Ren} {k : Kind} {b : Block} {i : Nat} {c : Cell} (h : CellAt ρ k b i c)
    (le : Ren.le ρ ρ') : CellAt ρ' k b i c := by
  cases c with
  | uninit => trivial
  | ptr p => exact ⟨h.1, h.2.choose, h.2.choose_spec.1.mono le, h.2.choose_spec.2⟩
  | idx v => exact h

/-- Block `b` represents the node `n`. -/
structure NodeRep (ρ : Ren) (n : Node) (b : Block) : Prop where
  size : b.length = layoutSize n.kind n.cells.length
  mask : At b 0 (leBytes 8 n.mask.toNat)
  cap : At b 8 (leBytes 1 n.cap)
  len : At b 9 (leBytes 1 n.len)
  cap_lt : n.cap < 256
  len_lt : n.len < 256
  cells : ∀ (i : Nat) (c : Cell), n.cells[i]? = some c → CellAt ρ n.kind b i c

theorem NodeRep.mono {ρ ρ' : Ren} {n : Node} {b : Block} (r : NodeRep ρ n b) (le : Ren.le ρ ρ') :
    NodeRep ρ' n b :=
  ⟨r.size, r.mask, r.cap, r.len, r.cap_lt, r.len_lt, fun i c h => (r.cells i c h).mono le⟩

/-- The memory consists of the blocks of the cell heap `h`, renamed, and of the rest `F`, which is
disjoint from them. -/
structure HeapRep (ρ : Ren) (F : Mem) (h : Heap) (bh : BHeap) : Prop where
  dom : ∀ a a', ρ a = some a' → a < h.next
  live : ∀ a n, h.node a = some n → ∃ a' b, ρ a = some a' ∧ bh.block a' = some b ∧ F a' = none ∧
    NodeRep ρ n b
  inj : ∀ a1 a2 n1 n2 a', h.node a1 = some n1 → h.node a2 = some n2 → ρ a1 = some a' →
    ρ a2 = some a' → a1 = a2
  frame : ∀ x, (∀ a n, h.node a = some n → ρ a ≠ some x) → bh.block x = F x
  fin : Finite bh.block

/-- Corresponding children of the right type, that fit. -/
inductive ValOk (ρ : Ren) : Kind → Cell → Cell → Prop
  | ptr (p p' : Ptr) : PtrRel ρ p p' → ValOk ρ .branch (.ptr p) (.ptr p')
  | idx (v : Nat) : v < 2 ^ 32 → ValOk ρ .term (.idx v) (.idx v)

theorem ValOk.mono {ρ ρ' : Ren} {k : Kind} {c c' : Cell} (h : ValOk ρ k c c') (le : Ren.le ρ ρ') :
    ValOk ρ' k c c' := by
  cases h with
  | ptr p p' hp => exact .ptr p p' (hp.mono le)
  | idx v hv => exact .idx v hv

theorem emptyNode_rel {n D : Nat} {e : Ptr} (h : emptyNode n D = .ok e) (ρ : Ren) : PtrRel ρ e e := by
  unfold emptyNode at h
  split at h
  · cases h; exact .stat _
  · cases h

variable {ρ : Ren} {F : Mem}

theorem NodeRep.ge {n : Node} {b : Block} (r : NodeRep ρ n b) :
    16 + tsize n.kind * n.cells.length ≤ b.length := by
  rw [r.size]; exact layoutSize_ge _ _

theorem statNode_rep {i : Nat} {n : Node} (h : statNode i = some n) :
    ∃ b, statBlock i = some b ∧ NodeRep ρ n b := by
  unfold statNode at h
  unfold statBlock
  by_cases h1 : i < 8
  · rw [if_pos h1] at h
    cases h
    refine ⟨_, by simp only [if_pos h1]; rfl, ?_⟩
    refine ⟨by simp, ?_, ?_, ?_, by simp, by simp, ?_⟩
    · intro j hj
      have hj : j < 8 := by simpa using hj
      rw [List.append_assoc, List.append_assoc, List.getElem?_append_left (by simp; omega)]
      simp
    · intro j hj
      have hj : j < 1 := by simpa using hj
      obtain rfl : j = 0 := by omega
      rfl
    · intro j hj
      have hj : j < 1 := by simpa using hj
      obtain rfl : j = 0 := by omega
      rfl
    · intro j c hc
      match j, hc with
      | 0, hc =>
        cases hc
        refine ⟨rfl, _, .stat _, fun j hj => ?_⟩
        rw [List.getElem?_append_right (by simp [childOff, childrenOff])]
        congr 1
        simp [childOff, childrenOff]
      | j + 1, hc => simp at hc
  · rw [if_neg h1] at h
    by_cases h8 : i = 8
    · rw [if_pos h8] at h
      cases h
      refine ⟨_, by simp only [if_neg h1, if_pos h8]; rfl, ?_⟩
      refine ⟨rfl, ?_, ?_, ?_, by decide, by decide, ?_⟩
      · intro j hj
        have hj : j < 8 := by simpa using hj
        rw [List.append_assoc, List.append_assoc, List.getElem?_append_left (by simp; omega)]
        simp
      · intro j hj
        have hj : j < 1 := by simpa using hj
        obtain rfl : j = 0 := by omega
        rfl
      · intro j hj
        have hj : j < 1 := by simpa using hj
        obtain rfl : j = 0 := by omega
        rfl
      · intro j c hc
        match j, hc with
        | 0, hc =>
          cases hc
          refine ⟨rfl, by decide, fun j hj => ?_⟩
          have hj : j < 4 := by simpa using hj
          match j, hj with
          | 0, _ => rfl
          | 1, _ => rfl
          | 2, _ => rfl
          | 3, _ => rfl
        | j + 1, hc => simp at hc
    · rw [if_neg h8] at h; cases h

/-! ## Reading -/

theorem unwrapU_eq_ok {X : Type} {o : Option X} {a : X} (h : unwrapU o = .ok a) : o = some a := by
  cases o with
  | none => cases h
  | some b => cases h; rfl

variable {h : Heap} {bh : BHeap} {n : Node} {b : Block}

theorem deref_sim (H : HeapRep ρ F h bh) {p p' : Ptr} (hp : PtrRel ρ p p') :
    Sim (NodeRep ρ) (deref h p) (bytesOf bh p') := by
  intro n e
  have key : ∀ b, NodeRep ρ n b → childrenOff ≤ b.length := fun b r => by
    have := r.ge; unfold childrenOff; omega
  cases hp with
  | heap ha =>
    obtain ⟨a', b, ha', hb, -, r⟩ := H.live _ n (unwrapU_eq_ok e)
    rw [ha] at ha'
    cases ha'
    refine ⟨b, ?_, r⟩
    simp only [bytesOf, hb, unwrapU, bind_ok, if_pos (key b r), pure_eq_ok]
  | stat i =>
    obtain ⟨b, hb, r⟩ := statNode_rep (ρ := ρ) (unwrapU_eq_ok e)
    refine ⟨b, ?_, r⟩
    simp only [bytesOf, hb, unwrapU, bind_ok, if_pos (key b r), pure_eq_ok]

theorem derefMut_sim (H : HeapRep ρ F h bh) {p p' : Ptr} (hp : PtrRel ρ p p') :
    Sim (fun x y => ρ x.1 = some y.1 ∧ NodeRep ρ x.2 y.2 ∧ h.node x.1 = some x.2 ∧
        bh.block y.1 = some y.2)
      (derefMut h p) (bytesMut bh p') := by
  cases hp with
  | stat i => exact Sim.err
  | heap ha =>
    rename_i a a'
    intro x e
    simp only [derefMut] at e
    cases hn : h.node a with
    | none => rw [hn] at e; cases e
    | some n =>
      rw [hn] at e
      cases e
      obtain ⟨a2, b, ha2, hb, -, r⟩ := H.live a n hn
      rw [ha] at ha2
      cases ha2
      obtain ⟨b', hb', -⟩ := deref_sim H (.heap ha) n (by simp [deref, hn, unwrapU])
      have : b' = b := by
        simp only [bytesOf, hb, unwrapU, bind_ok] at hb'
        split at hb' <;> cases hb'
        rfl
      subst this
      exact ⟨(a', b'), by simp only [bytesMut, hb', bind_ok, pure_eq_ok], ha, r, hn, hb⟩

theorem getMask_ok (r : NodeRep ρ n b) : getMask b = .ok n.mask := by
  unfold getMask maskOff
  rw [load_at r.mask (by simp) (by omega) (by decide), bind_ok, leVal_leBytes, bind_ok, pure_eq_ok]
  congr 1
  apply BitVec.eq_of_toNat_eq
  have := n.mask.isLt
  simp [BitVec.toNat_ofNat]
  omega

theorem getCap_ok (r : NodeRep ρ n b) : getCap b = .ok n.cap := by
  unfold getCap capOff
  rw [load_at r.cap (by simp) (by omega) (by decide), bind_ok, leVal_leBytes]
  congr 1
  exact Nat.mod_eq_of_lt r.cap_lt

theorem getLen_ok (r : NodeRep ρ n b) : getLen b = .ok n.len := by
  unfold getLen lenOff
  rw [load_at r.len (by simp) (by omega) (by decide), bind_ok, leVal_leBytes]
  congr 1
  exact Nat.mod_eq_of_lt r.len_lt

theorem childPtr_sim (r : NodeRep ρ n b) (d : Nat) :
    Sim (PtrRel ρ) (do let c ← getU n.cells d; c.asPtr) (childPtr b d) := by
  intro p e
  unfold getU at e
  cases hc : n.cells[d]? with
  | none => rw [hc] at e; cases e
  | some c =>
    rw [hc] at e
    cases c with
    | uninit => cases e
    | idx _ => cases e
    | ptr q =>
      cases e
      have := r.cells d _ hc
      obtain ⟨hk, p', hp, hat⟩ := this
      rw [hk] at hat
      refine ⟨p', ?_, hp⟩
      unfold childPtr
      rw [load_at (s := 8) (al := 8) hat (by simp) (by omega) (childOff_align .branch d), bind_ok, ptrVal_ptrBytes]

theorem childIdx_sim (r : NodeRep ρ n b) (d : Nat) :
    Sim Eq (do let c ← getU n.cells d; c.asIdx) (childIdx b d) := by
  intro p e
  unfold getU at e
  cases hc : n.cells[d]? with
  | none => rw [hc] at e; cases e
  | some c =>
    rw [hc] at e
    cases c with
    | uninit => cases e
    | ptr _ => cases e
    | idx q =>
      cases e
      have := r.cells d _ hc
      obtain ⟨hk, hlt, hat⟩ := this
      rw [hk] at hat
      refine ⟨p, ?_, rfl⟩
      unfold childIdx
      rw [load_at (s := 4) (al := 4) hat (by simp) (by omega) (childOff_align .term d), bind_ok, leVal_leBytes]
      congr 1
      exact Nat.mod_eq_of_lt (by simpa using hlt)

theorem contains_sim (H : HeapRep ρ F h bh) {p p' : Ptr} (hp : PtrRel ρ p p') (i : Nat) :
    Sim Eq (do let n ← deref h p; n.contains i) (contains bh p' i) := by
  unfold contains
  refine Sim.bind (deref_sim H hp) fun n b r => ?_
  rw [getMask_ok r]
  exact Sim.refl

theorem maskOf_sim (H : HeapRep ρ F h bh) {p p' : Ptr} (hp : PtrRel ρ p p') :
    Sim Eq (do let n ← deref h p; return n.mask) (maskOf bh p') := by
  unfold maskOf
  refine Sim.bind (deref_sim H hp) fun n b r => ?_
  rw [getMask_ok r]
  exact Sim.refl

theorem lenOf_sim (H : HeapRep ρ F h bh) {p p' : Ptr} (hp : PtrRel ρ p p') :
    Sim Eq (do let n ← deref h p; return n.len) (lenOf bh p') := by
  unfold lenOf
  refine Sim.bind (deref_sim H hp) fun n b r => ?_
  rw [getLen_ok r]
  exact Sim.refl

theorem getChildPtr_sim (H : HeapRep ρ F h bh) {p p' : Ptr} (hp : PtrRel ρ p p') (i : Nat) :
    Sim (PtrRel ρ) (do let c ← getChild h p i; c.asPtr) (getChildPtr bh p' i) := by
  intro q e
  unfold getChild at e
  cases hd : deref h p with
  | error _ => rw [hd] at e; cases e
  | ok n =>
    obtain ⟨b, hb, r⟩ := deref_sim H hp n hd
    rw [hd, bind_ok] at e
    unfold getChildPtr denseOf maskOf
    simp only [hb, bind_ok, getMask_ok r]
    cases hi : denseIndex n.mask i with
    | error _ => rw [hi] at e; cases e
    | ok d =>
      rw [hi] at e
      simp only [bind_ok] at e ⊢
      exact childPtr_sim r d q e

theorem getChildIdx_sim (H : HeapRep ρ F h bh) {p p' : Ptr} (hp : PtrRel ρ p p') (i : Nat) :
    Sim Eq (do let c ← getChild h p i; c.asIdx) (getChildIdx bh p' i) := by
  intro q e
  unfold getChild at e
  cases hd : deref h p with
  | error _ => rw [hd] at e; cases e
  | ok n =>
    obtain ⟨b, hb, r⟩ := deref_sim H hp n hd
    rw [hd, bind_ok] at e
    refine ⟨q, ?_, rfl⟩
    unfold getChildIdx denseOf maskOf
    simp only [hb, bind_ok, getMask_ok r]
    cases hi : denseIndex n.mask i with
    | error _ => rw [hi] at e; cases e
    | ok d =>
      rw [hi] at e
      simp only [bind_ok] at e ⊢
      exact (childIdx_sim r d).eq e

/-! ## Writing -/

/-- The children are the same where memory is the same. -/
theorem CellAt.congr {k : Kind} {b b' : Block} {i : Nat} {c : Cell} (h : CellAt ρ k b i c)
    (he : ∀ j, childOff k i ≤ j → j < childOff k (i + 1) → b'[j]? = b[j]?) : CellAt ρ k b' i c := by
  cases c with
  | uninit => trivial
  | ptr p =>
    obtain ⟨hk, p', hp, hat⟩ := h
    subst hk
    refine ⟨rfl, p', hp, hat.congr fun j h1 h2 => he j h1 ?_⟩
    rw [ptrBytes_length] at h2
    simp only [childOff, tsize] at h2 ⊢; omega
  | idx v =>
    obtain ⟨hk, hlt, hat⟩ := h
    subst hk
    refine ⟨rfl, hlt, hat.congr fun j h1 h2 => he j h1 ?_⟩
    rw [leBytes_length] at h2
    simp only [childOff, tsize] at h2 ⊢; omega

/-- A child moves with its bytes. -/
theorem CellAt.move {k : Kind} {b b' : Block} {i i' : Nat} {c : Cell} (h : CellAt ρ k b i c)
    (he : ∀ j, j < tsize k → b'[childOff k i' + j]? = b[childOff k i + j]?) : CellAt ρ k b' i' c := by
  cases c with
  | uninit => trivial
  | ptr p =>
    obtain ⟨hk, p', hp, hat⟩ := h
    subst hk
    exact ⟨rfl, p', hp, fun j hj => (he j (by simpa [tsize] using hj)).trans (hat j hj)⟩
  | idx v =>
    obtain ⟨hk, hlt, hat⟩ := h
    subst hk
    exact ⟨rfl, hlt, fun j hj => (he j (by simpa [tsize] using hj)).trans (hat j hj)⟩

theorem putMask_ok (r : NodeRep ρ n b) (m : Word) :
    ∃ b', putMask b m = .ok b' ∧ NodeRep ρ { n with mask := m } b' := by
  obtain ⟨b', e, hl, hat, ho⟩ := store_ok (b := b) (o := maskOff) (al := 8) (v := leBytes 8 m.toNat)
    (by decide) (by have := r.ge; simp [maskOff]; omega)
  rw [leBytes_length] at ho
  simp only [maskOff] at ho hat
  refine ⟨b', e, ⟨hl.trans r.size, hat, r.cap.congr fun i h1 h2 => ho i (by omega),
    r.len.congr fun i h1 h2 => ho i (by omega), r.cap_lt, r.len_lt, fun i c hc =>
    (r.cells i c hc).congr fun j h1 h2 => ho j ?_⟩⟩
  simp only [childOff, childrenOff] at h1; omega

theorem putCap_ok (r : NodeRep ρ n b) {c : Nat} (hc : c < 256) :
    ∃ b', putCap b c = .ok b' ∧ NodeRep ρ { n with cap := c } b' := by
  obtain ⟨b', e, hl, hat, ho⟩ := store_ok (b := b) (o := capOff) (al := 1) (v := leBytes 1 c)
    (by decide) (by have := r.ge; simp [capOff]; omega)
  rw [leBytes_length] at ho
  simp only [capOff] at ho hat
  refine ⟨b', e, ⟨hl.trans r.size, r.mask.congr fun i h1 h2 => ho i ?_, hat,
    r.len.congr fun i h1 h2 => ho i (by omega), hc, r.len_lt, fun i c hc =>
    (r.cells i c hc).congr fun j h1 h2 => ho j ?_⟩⟩
  · rw [leBytes_length] at h2; omega
  · simp only [childOff, childrenOff] at h1; omega

theorem putLen_ok (r : NodeRep ρ n b) {c : Nat} (hc : c < 256) :
    ∃ b', putLen b c = .ok b' ∧ NodeRep ρ { n with len := c } b' := by
  obtain ⟨b', e, hl, hat, ho⟩ := store_ok (b := b) (o := lenOff) (al := 1) (v := leBytes 1 c)
    (by decide) (by have := r.ge; simp [lenOff]; omega)
  rw [leBytes_length] at ho
  simp only [lenOff] at ho hat
  refine ⟨b', e, ⟨hl.trans r.size, r.mask.congr fun i h1 h2 => ho i ?_,
    r.cap.congr fun i h1 h2 => ho i ?_, hat, r.cap_lt, hc, fun i c hc =>
    (r.cells i c hc).congr fun j h1 h2 => ho j ?_⟩⟩
  · rw [leBytes_length] at h2; omega
  · rw [leBytes_length] at h2; omega
  · simp only [childOff, childrenOff] at h1; omega

/-- Writing a child. -/
theorem putChild_ok (r : NodeRep ρ n b) {d : Nat} {c c' : Cell} (hd : d < n.cells.length)
    (hv : ValOk ρ n.kind c c') :
    ∃ b', putChild n.kind b d c' = .ok b' ∧ NodeRep ρ { n with cells := n.cells.set d c } b' := by
  have hbytes : ∃ v, childBytes n.kind c' = .ok v ∧ v.length = tsize n.kind ∧
      ∀ b', At b' (childOff n.kind d) v → CellAt ρ n.kind b' d c := by
    generalize n.kind = k at hv
    cases hv with
    | ptr p p' hp => exact ⟨ptrBytes p', rfl, by simp [tsize], fun b' h => ⟨rfl, p', hp, h⟩⟩
    | idx v hlt => exact ⟨leBytes 4 v, rfl, by simp [tsize], fun b' h => ⟨rfl, hlt, h⟩⟩
  obtain ⟨v, ev, hvl, hcell⟩ := hbytes
  have hm : tsize n.kind * (d + 1) ≤ tsize n.kind * n.cells.length := Nat.mul_le_mul_left _ hd
  rw [Nat.mul_add, Nat.mul_one] at hm
  obtain ⟨b', e, hl, hat, ho⟩ := store_ok (b := b) (o := childOff n.kind d) (al := tsize n.kind)
    (v := v) (childOff_align _ _)
    (by have := r.ge; rw [hvl]; simp only [childOff, childrenOff]; omega)
  rw [hvl] at ho
  have hge : 16 ≤ childOff n.kind d := by simp only [childOff, childrenOff]; omega
  refine ⟨b', by unfold putChild; rw [ev]; exact e, ⟨by rw [hl, r.size]; simp,
    r.mask.congr fun i h1 h2 => ho i ?_, r.cap.congr fun i h1 h2 => ho i ?_,
    r.len.congr fun i h1 h2 => ho i ?_, r.cap_lt, r.len_lt, fun i c' hc => ?_⟩⟩
  · rw [leBytes_length] at h2; omega
  · rw [leBytes_length] at h2; omega
  · rw [leBytes_length] at h2; omega
  · by_cases e : i = d
    · subst e
      rw [List.getElem?_set_self hd] at hc
      cases hc
      exact hcell b' hat
    · rw [List.getElem?_set_ne (by omega)] at hc
      refine (r.cells i c' hc).congr fun j h1 h2 => ho j ?_
      rcases Nat.lt_or_gt_of_ne e with hlt | hgt
      · left
        have := Nat.mul_le_mul_left (tsize n.kind) (show i + 1 ≤ d from hlt)
        simp only [childOff] at h1 h2 ⊢; omega
      · right
        have := Nat.mul_le_mul_left (tsize n.kind) (show d + 1 ≤ i from hgt)
        rw [Nat.mul_add, Nat.mul_one] at this
        simp only [childOff] at h1 h2 ⊢; omega

/-- `ptr::copy` of children. -/
theorem memmove_sim (r : NodeRep ρ n b) (src dst cnt : Nat) :
    Sim (fun cells b' => NodeRep ρ { n with cells := cells } b') (copyCells n.cells src dst cnt)
      (memmove b (childOff n.kind src) (childOff n.kind dst) (tsize n.kind * cnt) (tsize n.kind)) := by
  intro cells e
  unfold copyCells at e
  by_cases hb : src + cnt ≤ n.cells.length ∧ dst + cnt ≤ n.cells.length
  · rw [if_pos hb] at e
    cases e
    have m1 := Nat.mul_le_mul_left (tsize n.kind) hb.1
    have m2 := Nat.mul_le_mul_left (tsize n.kind) hb.2
    rw [Nat.mul_add] at m1 m2
    have hge := r.ge
    obtain ⟨b', e, hl, hmv, ho⟩ := memmove_ok (b := b) (src := childOff n.kind src)
      (dst := childOff n.kind dst) (size := tsize n.kind * cnt) (al := tsize n.kind)
      (childOff_align _ _) (childOff_align _ _) (by simp only [childOff, childrenOff]; omega)
      (by simp only [childOff, childrenOff]; omega)
    have hg : 16 ≤ childOff n.kind dst := by simp only [childOff, childrenOff]; omega
    refine ⟨b', e, ⟨?_, r.mask.congr fun i h1 h2 => ho i ?_, r.cap.congr fun i h1 h2 => ho i ?_,
      r.len.congr fun i h1 h2 => ho i ?_, r.cap_lt, r.len_lt, fun i c hc => ?_⟩⟩
    · rw [hl, r.size]
      congr 1
      simp; omega
    · rw [leBytes_length] at h2; omega
    · rw [leBytes_length] at h2; omega
    · rw [leBytes_length] at h2; omega
    · simp only at hc ⊢
      rw [List.append_assoc] at hc
      by_cases h1 : i < dst
      · rw [List.getElem?_append_left (by simp; omega), List.getElem?_take_of_lt h1] at hc
        refine (r.cells i c hc).congr fun j q1 q2 => ho j (.inl ?_)
        have := Nat.mul_le_mul_left (tsize n.kind) (show i + 1 ≤ dst from h1)
        simp only [childOff] at q2 ⊢; omega
      · rw [List.getElem?_append_right (by simp; omega)] at hc
        have hlen : (n.cells.take dst).length = dst := by simp; omega
        rw [hlen] at hc
        by_cases h2 : i - dst < cnt
        · rw [List.getElem?_append_left (by simp; omega), List.getElem?_take_of_lt h2,
            List.getElem?_drop] at hc
          refine (r.cells _ c hc).move fun j hj => ?_
          have hm1 : tsize n.kind * (i - dst + 1) ≤ tsize n.kind * cnt := Nat.mul_le_mul_left _ h2
          rw [Nat.mul_add, Nat.mul_one] at hm1
          have ei : tsize n.kind * i = tsize n.kind * dst + tsize n.kind * (i - dst) := by
            rw [← Nat.mul_add]; congr 1; omega
          have e1 : childOff n.kind i + j = childOff n.kind dst + (tsize n.kind * (i - dst) + j) := by
            simp only [childOff, ei]; omega
          have e2 : childOff n.kind (src + (i - dst)) + j
              = childOff n.kind src + (tsize n.kind * (i - dst) + j) := by
            simp only [childOff, Nat.mul_add]; omega
          rw [e1, e2]
          exact hmv _ (by omega)
        · rw [List.getElem?_append_right (by simp; omega)] at hc
          rw [List.getElem?_drop] at hc
          have : dst + cnt + (i - dst - ((n.cells.drop src).take cnt).length) = i := by
            simp; omega
          rw [this] at hc
          refine (r.cells i c hc).congr fun j q1 q2 => ho j (.inr ?_)
          have := Nat.mul_le_mul_left (tsize n.kind) (show dst + cnt ≤ i by omega)
          rw [Nat.mul_add] at this
          simp only [childOff] at q1 ⊢; omega
  · rw [if_neg hb] at e; cases e

/-! ## The heap -/

/-- Blocks outside the tree's own are not touched, blocks of the tree have one owner. -/
theorem HeapRep.put (H : HeapRep ρ F h bh) {a a' : Nat} {n0 : Node} (hn : h.node a = some n0)
    (ha : ρ a = some a') (r : NodeRep ρ n b) : HeapRep ρ F (h.put a n) (bh.put a' b) := by
  have hF : F a' = none := by
    obtain ⟨a2, b2, e, -, hF, -⟩ := H.live a n0 hn
    rw [ha] at e; cases e; exact hF
  have live : ∀ x m, (h.put a n).node x = some m → ∃ m', h.node x = some m' := by
    intro x m hx
    simp only [Heap.put, upd] at hx
    by_cases e : x = a
    · exact ⟨n0, e ▸ hn⟩
    · rw [if_neg e] at hx; exact ⟨m, hx⟩
  refine ⟨H.dom, fun x m hx => ?_, fun a1 a2 n1 n2 x h1 h2 e1 e2 => ?_, fun x hx => ?_, ?_⟩
  · simp only [Heap.put, upd] at hx
    by_cases e : x = a
    · rw [if_pos e] at hx
      cases hx
      subst e
      exact ⟨a', b, ha, by simp [BHeap.put], hF, r⟩
    · rw [if_neg e] at hx
      obtain ⟨x', bx, e1, e2, e3, e4⟩ := H.live x m hx
      refine ⟨x', bx, e1, ?_, e3, e4⟩
      have : x' ≠ a' := by
        intro e'
        rw [e'] at e1
        exact e (H.inj x a m n0 a' hx hn e1 ha)
      simp only [BHeap.put, if_neg this, e2]
  · obtain ⟨m1, h1⟩ := live a1 n1 h1
    obtain ⟨m2, h2⟩ := live a2 n2 h2
    exact H.inj a1 a2 m1 m2 x h1 h2 e1 e2
  · have hxa : x ≠ a' := by
      intro e
      refine hx a n (by simp [Heap.put, upd]) ?_
      rw [ha, e]
    simp only [BHeap.put, if_neg hxa]
    refine H.frame x fun y m hy => ?_
    by_cases e : y = a
    · rw [e, ha]; intro e'; cases e'; exact hxa rfl
    · exact hx y m (by simp only [Heap.put, upd, if_neg e, hy])
  · obtain ⟨B, hB⟩ := H.fin
    refine ⟨max B (a' + 1), fun x hx => ?_⟩
    simp only [BHeap.put]
    rw [if_neg (by omega)]
    exact hB x (by omega)

/-- A new block, wherever the allocator puts it. -/
theorem HeapRep.alloc (H : HeapRep ρ F h bh) (r : NodeRep ρ n b) :
    ∃ ρ', Ren.le ρ ρ' ∧ HeapRep ρ' F (h.alloc n).1 (bh.alloc b).1 ∧
      ρ' (h.alloc n).2 = some (bh.alloc b).2 := by
  have hfree := bh.allocator.free bh.calls bh.block b.length H.fin
  generalize ha : bh.allocator.pick bh.calls bh.block b.length = a' at hfree
  have hbh : bh.alloc b = (⟨fun x => if x = a' then some b else bh.block x, bh.calls + 1,
      bh.allocator⟩, a') := by
    simp only [BHeap.alloc, ha]
  have hnl : ∀ a m, h.node a = some m → ρ a ≠ some a' := by
    intro a m hm e
    obtain ⟨a2, b2, e1, e2, -⟩ := H.live a m hm
    rw [e] at e1; cases e1
    rw [hfree] at e2; cases e2
  have hF : F a' = none := (H.frame a' hnl).symm.trans hfree
  have hnext : ∀ a m, h.node a = some m → a ≠ h.next := by
    intro a m hm e
    obtain ⟨a2, b2, e1, -⟩ := H.live a m hm
    have := H.dom a a2 e1
    omega
  have le : Ren.le ρ (upd ρ h.next (some a')) := by
    intro a x e
    have := H.dom a x e
    simp only [upd]
    rw [if_neg (by omega)]
    exact e
  rw [hbh]
  refine ⟨upd ρ h.next (some a'), le, ⟨fun a x e => ?_, fun a m hm => ?_,
    fun a1 a2 n1 n2 x h1 h2 e1 e2 => ?_, fun x hx => ?_, ?_⟩, by simp [upd, Heap.alloc]⟩
  · simp only [upd] at e
    simp only [Heap.alloc]
    by_cases e' : a = h.next
    · omega
    · rw [if_neg e'] at e
      have := H.dom a x e
      omega
  · simp only [Heap.alloc, upd] at hm
    by_cases e : a = h.next
    · rw [if_pos e] at hm
      cases hm
      exact ⟨a', b, by simp [upd, e], by simp, hF, r.mono le⟩
    · rw [if_neg e] at hm
      obtain ⟨x', bx, e1, e2, e3, e4⟩ := H.live a m hm
      refine ⟨x', bx, le _ _ e1, ?_, e3, e4.mono le⟩
      have : x' ≠ a' := by intro e'; rw [e'] at e1; exact hnl a m hm e1
      simp only [if_neg this, e2]
  · simp only [Heap.alloc, upd] at h1 h2 e1 e2
    by_cases c1 : a1 = h.next
    · by_cases c2 : a2 = h.next
      · omega
      · rw [if_pos c1] at e1
        rw [if_neg c2] at e2 h2
        cases e1
        exact absurd e2 (hnl a2 n2 h2)
    · by_cases c2 : a2 = h.next
      · rw [if_pos c2] at e2
        rw [if_neg c1] at e1 h1
        cases e2
        exact absurd e1 (hnl a1 n1 h1)
      · rw [if_neg c1] at e1 h1
        rw [if_neg c2] at e2 h2
        exact H.inj a1 a2 n1 n2 x h1 h2 e1 e2
  · have hxa : x ≠ a' := by
      intro e
      exact hx h.next n (by simp [Heap.alloc, upd]) (by simp [upd, e])
    simp only [if_neg hxa]
    refine H.frame x fun y m hy => ?_
    have hy' := hnext y m hy
    have := hx y m (by simp only [Heap.alloc, upd, if_neg hy', hy])
    simpa only [upd, if_neg hy'] using this
  · obtain ⟨B, hB⟩ := H.fin
    refine ⟨max B (a' + 1), fun x hx => ?_⟩
    simp only
    rw [if_neg (by omega)]
    exact hB x (by omega)

theorem dealloc_sim (H : HeapRep ρ F h bh) {a a' : Nat} (ha : ρ a = some a') (k : Kind) (cap : Nat) :
    Sim (HeapRep ρ F) (h.dealloc a k cap) (bh.dealloc a' (layoutSize k cap)) := by
  intro h' e
  unfold Heap.dealloc at e
  cases hn : h.node a with
  | none => rw [hn] at e; cases e
  | some n =>
    rw [hn] at e
    simp only [unwrapU, bind_ok] at e
    obtain ⟨a2, b, e2, hb, hF, r⟩ := H.live a n hn
    rw [ha] at e2
    cases e2
    by_cases hk : n.kind = k ∧ n.cells.length = cap
    · rw [if_pos hk] at e
      cases e
      refine ⟨{ bh with block := fun x => if x = a' then none else bh.block x }, ?_, ?_⟩
      · unfold BHeap.dealloc
        rw [hb]
        simp only [unwrapU, bind_ok]
        rw [if_pos (by rw [r.size, hk.1, hk.2])]
        rfl
      · have live : ∀ x m, upd h.node a none x = some m → x ≠ a ∧ h.node x = some m := by
          intro x m hx
          simp only [upd] at hx
          by_cases e : x = a
          · rw [if_pos e] at hx; cases hx
          · rw [if_neg e] at hx; exact ⟨e, hx⟩
        refine ⟨H.dom, fun x m hx => ?_, fun a1 a2 n1 n2 x h1 h2 e1 e2 =>
          H.inj a1 a2 n1 n2 x (live _ _ h1).2 (live _ _ h2).2 e1 e2, fun x hx => ?_, ?_⟩
        · obtain ⟨hxa, hx⟩ := live x m hx
          obtain ⟨x', bx, e1, e2, e3, e4⟩ := H.live x m hx
          refine ⟨x', bx, e1, ?_, e3, e4⟩
          have : x' ≠ a' := by
            intro e'
            rw [e'] at e1
            exact hxa (H.inj x a m n a' hx hn e1 ha)
          simp only [if_neg this, e2]
        · by_cases hxa : x = a'
          · subst hxa; simp only [if_true, hF]
          · simp only [if_neg hxa]
            refine H.frame x fun y m hy => ?_
            by_cases e : y = a
            · rw [e, ha]; intro e'; cases e'; exact hxa rfl
            · exact hx y m (by simp only [upd, if_neg e, hy])
        · obtain ⟨B, hB⟩ := H.fin
          refine ⟨B, fun x hx => ?_⟩
          simp only [hB x hx, ite_self]
    · rw [if_neg hk] at e; cases e

/-- Two computations correspond, the second extending the renaming. -/
abbrev SimW {A B : Type} (ρ : Ren) (Q : Ren → A → B → Prop) (x : R A) (y : R B) : Prop :=
  Sim (fun a b => ∃ ρ', Ren.le ρ ρ' ∧ Q ρ' a b) x y

theorem SimW.bind {A B A' B' : Type} {Q : Ren → A → B → Prop} {Q' : Ren → A' → B' → Prop} {x : R A}
    {y : R B} {f : A → R A'} {g : B → R B'} (hx : SimW ρ Q x y)
    (hf : ∀ ρ' a b, Ren.le ρ ρ' → Q ρ' a b → SimW ρ' Q' (f a) (g b)) :
    SimW ρ Q' (x >>= f) (y >>= g) := by
  refine Sim.bind hx fun a b q => ?_
  obtain ⟨ρ', le, q⟩ := q
  exact (hf ρ' a b le q).mono fun a b ⟨ρ2, le2, q2⟩ => ⟨ρ2, le.trans le2, q2⟩

theorem SimW.ok {A B : Type} {Q : Ren → A → B → Prop} {a : A} {b : B} (h : Q ρ a b) :
    SimW ρ Q (.ok a) (.ok b) := Sim.ok ⟨ρ, Ren.le.refl ρ, h⟩

theorem Sim.toW {A B : Type} {Q : Ren → A → B → Prop} {x : R A} {y : R B} (h : Sim (Q ρ) x y) :
    SimW ρ Q x y := h.mono fun _ _ q => ⟨ρ, Ren.le.refl ρ, q⟩

/-! ## Node operations -/

theorem At.nil {b : Block} {o : Nat} : At b o [] := fun j hj => by simp at hj

/-- node.rs:193-208 -/
theorem nodeNew_sim (H : HeapRep ρ F h bh) {k : Kind} {cap : Nat} {c c' : Cell} (hc : cap < 256)
    (hv : ValOk ρ k c c') : SimW ρ (fun ρ' x y => HeapRep ρ' F x.1 y.1 ∧ ρ' x.2 = some y.2)
      (Dense.nodeNew h k cap c) (nodeNew bh k cap c') := by
  unfold Dense.nodeNew nodeNew
  by_cases h1 : cap ≥ 1
  rotate_left
  · rw [if_neg h1]; exact Sim.err
  simp only [if_pos h1]
  have hlen : (fresh (layoutSize k cap)).length = layoutSize k cap := by simp [fresh]
  have hge := layoutSize_ge k cap
  -- the bytes written one by one
  obtain ⟨b1, e1, l1, a1, o1⟩ := store_ok (b := fresh (layoutSize k cap)) (o := maskOff) (al := 8)
    (v := leBytes 8 (0 : Word).toNat) (by decide) (by rw [hlen]; simp [maskOff]; omega)
  obtain ⟨b2, e2, l2, a2, o2⟩ := store_ok (b := b1) (o := capOff) (al := 1)
    (v := leBytes 1 cap) (by decide) (by rw [l1, hlen]; simp [capOff]; omega)
  obtain ⟨b3, e3, l3, a3, o3⟩ := store_ok (b := b2) (o := lenOff) (al := 1)
    (v := leBytes 1 1) (by decide) (by rw [l2, l1, hlen]; simp [lenOff]; omega)
  simp only [leBytes_length, maskOff, capOff, lenOff] at o1 o2 o3 a1 a2 a3
  have r : NodeRep ρ ⟨k, 0, cap, 1, List.replicate cap .uninit⟩ b3 := by
    refine ⟨by rw [l3, l2, l1, hlen]; simp, a1.congr fun i q1 q2 => ?_, a2.congr fun i q1 q2 => ?_,
      a3, hc, by simp, fun i c' hc' => ?_⟩
    · rw [leBytes_length] at q2
      rw [o3 i (by omega), o2 i (by omega)]
    · rw [leBytes_length] at q2
      rw [o3 i (by omega)]
    · rw [List.getElem?_replicate] at hc'
      split at hc' <;> cases hc'
      trivial
  obtain ⟨b4, e4, r4⟩ := putChild_ok r (d := 0) (c := c) (c' := c') (by simp; omega) hv
  have e4 : putChild k b3 0 c' = .ok b4 := e4
  have hcells : (List.replicate cap Cell.uninit).set 0 c =
      c :: List.replicate (cap - 1) .uninit := by
    obtain ⟨m, rfl⟩ : ∃ m, cap = m + 1 := ⟨cap - 1, by omega⟩
    simp [List.replicate_succ]
  rw [hcells] at r4
  have e1 : putMask (fresh (layoutSize k cap)) 0 = .ok b1 := e1
  have e2 : putCap b1 cap = .ok b2 := e2
  have e3 : putLen b2 1 = .ok b3 := e3
  rw [e1, bind_ok, e2, bind_ok, e3, bind_ok, e4, bind_ok, pure_eq_ok]
  obtain ⟨ρ', le, H', ea⟩ := H.alloc r4
  exact Sim.ok ⟨ρ', le, H', ea⟩

/-- node.rs:304-317 -/
theorem nodeGrow_sim (H : HeapRep ρ F h bh) (r : NodeRep ρ n b) {a a' : Nat} (hn : h.node a = some n)
    (ha : ρ a = some a') (hb : bh.block a' = some b) :
    SimW ρ (fun ρ' x y => HeapRep ρ' F x.1 y.1 ∧ ρ' x.2.1 = some y.2.1 ∧ NodeRep ρ' x.2.2 y.2.2 ∧
        x.2.2.kind = n.kind ∧ ∃ m, x.1.node x.2.1 = some m)
      (Dense.nodeGrow h n.kind a n) (nodeGrow bh n.kind a' b) := by
  unfold Dense.nodeGrow nodeGrow
  rw [getCap_ok r, bind_ok, getLen_ok r, bind_ok]
  by_cases hfull : n.len = n.cap
  rotate_left
  · simp only [if_neg hfull]; exact SimW.ok ⟨H, ha, r, rfl, n, hn⟩
  simp only [if_pos hfull]
  by_cases h2 : n.cap * 2 < 256
  rotate_left
  · simp only [if_neg h2]; exact Sim.err
  simp only [if_pos h2, bind_ok]
  intro x e
  cases hd : h.dealloc a n.kind n.cap with
  | error _ => rw [hd] at e; cases e
  | ok h1 =>
    have hcl : n.cells.length = n.cap := by
      unfold Heap.dealloc at hd
      rw [hn] at hd
      simp only [unwrapU, bind_ok] at hd
      by_cases hk : n.cells.length = n.cap
      · exact hk
      · rw [if_neg (by simp [hk])] at hd; cases hd
    rw [hd, bind_ok, pure_eq_ok] at e
    obtain ⟨bh1, hbd, H1⟩ := dealloc_sim H ha n.kind n.cap h1 hd
    have hsz := layoutSize_mono n.kind (show n.cap ≤ n.cap * 2 by omega)
    have hbl : b.length = layoutSize n.kind n.cap := by rw [r.size, hcl]
    have hb1 : b.take (layoutSize n.kind (n.cap * 2)) ++
        fresh (layoutSize n.kind (n.cap * 2) - b.length) =
        b ++ fresh (layoutSize n.kind (n.cap * 2) - b.length) := by
      rw [List.take_of_length_le (by omega)]
    have hold : ∀ i, i < b.length →
        (b ++ fresh (layoutSize n.kind (n.cap * 2) - b.length))[i]? = b[i]? :=
      fun i hi => List.getElem?_append_left hi
    have hge := r.ge
    have r1 : NodeRep ρ { n with cells := n.cells ++ List.replicate (n.cap * 2 - n.cells.length) .uninit }
        (b ++ fresh (layoutSize n.kind (n.cap * 2) - b.length)) := by
      refine ⟨?_, r.mask.congr fun i q1 q2 => hold i ?_, r.cap.congr fun i q1 q2 => hold i ?_,
        r.len.congr fun i q1 q2 => hold i ?_, r.cap_lt, r.len_lt, fun i c hc => ?_⟩
      · have : n.cells.length + (n.cap * 2 - n.cells.length) = n.cap * 2 := by omega
        simp [fresh, this]; omega
      · rw [leBytes_length] at q2; omega
      · rw [leBytes_length] at q2; omega
      · rw [leBytes_length] at q2; omega
      · simp only at hc ⊢
        by_cases hi : i < n.cells.length
        · rw [List.getElem?_append_left hi] at hc
          refine (r.cells i c hc).congr fun j q1 q2 => hold j ?_
          have := Nat.mul_le_mul_left (tsize n.kind) (show i + 1 ≤ n.cells.length from hi)
          simp only [childOff, childrenOff] at q2; omega
        · rw [List.getElem?_append_right (by omega), List.getElem?_replicate] at hc
          split at hc <;> cases hc
          trivial
    obtain ⟨b2, e2, r2⟩ := putCap_ok r1 h2
    obtain ⟨ρ', le, H2, ha2⟩ := H1.alloc r1
    have H3 := H2.put (show (h1.alloc _).1.node (h1.alloc _).2 = some _ from if_pos rfl) ha2 (r2.mono le)
    refine ⟨(((bh1.alloc (b ++ fresh (layoutSize n.kind (n.cap * 2) - b.length))).1.put
      (bh1.alloc (b ++ fresh (layoutSize n.kind (n.cap * 2) - b.length))).2 b2),
      (bh1.alloc (b ++ fresh (layoutSize n.kind (n.cap * 2) - b.length))).2, b2), ?_, ?_⟩
    · unfold BHeap.realloc
      rw [hb]
      simp only [unwrapU, bind_ok, hbd, pure_eq_ok, hb1, e2]
    · cases e
      refine ⟨ρ', le, ?_, ha2, r2.mono le, rfl, _, if_pos rfl⟩
      have eh : ∀ n1 n2 : Node, (h1.alloc n1).1 = (h1.alloc n2).1.put h1.next n1 := by
        intro n1 n2
        simp only [Heap.put, Heap.alloc]
        congr 1
        funext x
        simp only [upd]
        split <;> rfl
      simp only
      rw [eh _ { n with cells := n.cells ++ List.replicate (n.cap * 2 - n.cells.length) .uninit }]
      exact H3

/-- node.rs:298-335 -/
theorem nodeInsert_sim (H : HeapRep ρ F h bh) {k : Kind} {p p' : Ptr} (hp : PtrRel ρ p p') (index : Nat)
    {c c' : Cell} (hv : ValOk ρ k c c') :
    SimW ρ (fun ρ' x y => HeapRep ρ' F x.1 y.1 ∧ x.2.1 = y.2.1 ∧ ρ' x.2.2 = some y.2.2)
      (Dense.nodeInsert h k p index c) (nodeInsert bh k p' index c') := by
  unfold Dense.nodeInsert nodeInsert
  refine Sim.bind (derefMut_sim H hp) fun x y q => ?_
  obtain ⟨a, n⟩ := x
  obtain ⟨a', b⟩ := y
  obtain ⟨ha, r, hn, hb⟩ := q
  simp only at ha r hn hb ⊢
  by_cases hk : n.kind ≠ k
  · rw [if_pos hk]; exact Sim.err
  rw [if_neg hk]
  have hk : n.kind = k := by simpa using hk
  subst hk
  refine SimW.bind (nodeGrow_sim H r hn ha hb) fun ρ' x y le q => ?_
  have hv : ValOk ρ' n.kind c c' := hv.mono le
  obtain ⟨h1, a1, n1⟩ := x
  obtain ⟨bh1, a1', b1⟩ := y
  obtain ⟨H1, ha1, r1, ek, m1, hm1⟩ := q
  simp only at H1 ha1 r1 ek hm1 ⊢
  rw [getMask_ok r1, bind_ok]
  refine Sim.same fun mm _ => ?_
  obtain ⟨old, m⟩ := mm
  simp only
  obtain ⟨b2, e2, r2⟩ := putMask_ok r1 m
  simp only [e2, bind_ok, getMask_ok r2]
  refine Sim.same fun d _ => ?_
  simp only [getLen_ok r2, bind_ok]
  by_cases hdl : d ≤ n1.len
  rotate_left
  · simp only [if_neg hdl]; exact Sim.err
  simp only [if_pos hdl]
  have mv := memmove_sim r2 d (d + 1) (n1.len - d)
  simp only [ek] at mv
  refine Sim.bind mv fun cells b3 r3 => ?_
  intro x e
  by_cases hd : d < cells.length
  rotate_left
  · rw [setU, if_neg hd] at e; cases e
  rw [setU_ok _ hd, bind_ok] at e
  obtain ⟨b4, e4, r4⟩ := putChild_ok r3 (d := d) (c := c) (c' := c') hd (by simpa only [ek] using hv)
  simp only [ek] at e4
  simp only [e4, bind_ok, getLen_ok r4]
  by_cases hl : n1.len + 1 < 256
  · simp only [if_pos hl, bind_ok] at e ⊢
    obtain ⟨b5, e5, r5⟩ := putLen_ok r4 hl
    simp only [e5, bind_ok]
    cases e
    rw [ek]
    exact ⟨_, rfl, ρ', Ren.le.refl ρ', H1.put hm1 ha1 r5, rfl, ha1⟩
  · rw [if_neg hl] at e; cases e

/-- node.rs:338-348 -/
theorem nodeRemove_sim (H : HeapRep ρ F h bh) (k : Kind) {p p' : Ptr} (hp : PtrRel ρ p p')
    (index : Nat) : Sim (HeapRep ρ F) (Dense.nodeRemove h k p index) (nodeRemove bh k p' index) := by
  unfold Dense.nodeRemove nodeRemove
  refine Sim.bind (derefMut_sim H hp) fun x y q => ?_
  obtain ⟨a, n⟩ := x
  obtain ⟨a', b⟩ := y
  obtain ⟨ha, r, hn, hb⟩ := q
  simp only at ha r hn hb ⊢
  by_cases hk : n.kind ≠ k
  · rw [if_pos hk]; exact Sim.err
  rw [if_neg hk]
  have hk : n.kind = k := by simpa using hk
  subst hk
  rw [getMask_ok r, bind_ok]
  refine Sim.same fun d _ => ?_
  refine Sim.same fun mm _ => ?_
  obtain ⟨old, m⟩ := mm
  simp only
  obtain ⟨b2, e2, r2⟩ := putMask_ok r m
  simp only [e2, bind_ok, getLen_ok r2]
  by_cases hd : d + 1 ≤ n.len
  rotate_left
  · simp only [if_neg hd]; exact Sim.err
  simp only [if_pos hd, bind_ok]
  refine Sim.bind (memmove_sim r2 (d + 1) d (n.len - d - 1)) fun cells b3 r3 => ?_
  rw [getLen_ok r3, bind_ok]
  simp only
  rw [if_pos (show 1 ≤ n.len by omega)]
  have := r.len_lt
  obtain ⟨b4, e4, r4⟩ := putLen_ok r3 (c := n.len - 1) (by omega)
  rw [e4, bind_ok]
  exact Sim.ok (H.put hn ha r4)

/-- node.rs:352-356 -/
theorem dropNode_sim (H : HeapRep ρ F h bh) (k : Kind) {p p' : Ptr} (hp : PtrRel ρ p p') :
    Sim (HeapRep ρ F) (Dense.dropNode h k p) (dropNode bh k p') := by
  unfold Dense.dropNode dropNode
  refine Sim.bind (derefMut_sim H hp) fun x y q => ?_
  obtain ⟨a, n⟩ := x
  obtain ⟨a', b⟩ := y
  obtain ⟨ha, r, hn, hb⟩ := q
  simp only at ha r hn hb ⊢
  rw [getCap_ok r, bind_ok]
  exact dealloc_sim H ha k n.cap

/-- node.rs:155-158 -/
theorem setChild_sim (H : HeapRep ρ F h bh) {k : Kind} {p p' : Ptr} (hp : PtrRel ρ p p') (index : Nat)
    {c c' : Cell} (hv : ValOk ρ k c c') :
    Sim (HeapRep ρ F) (Dense.setChild h k p index c) (setChild bh k p' index c') := by
  unfold Dense.setChild setChild
  refine Sim.bind (derefMut_sim H hp) fun x y q => ?_
  obtain ⟨a, n⟩ := x
  obtain ⟨a', b⟩ := y
  obtain ⟨ha, r, hn, hb⟩ := q
  simp only at ha r hn hb ⊢
  by_cases hk : n.kind ≠ k
  · rw [if_pos hk]; exact Sim.err
  rw [if_neg hk]
  have hk : n.kind = k := by simpa using hk
  subst hk
  rw [getMask_ok r, bind_ok]
  refine Sim.same fun d _ => ?_
  intro x e
  by_cases hd : d < n.cells.length
  rotate_left
  · rw [setU, if_neg hd] at e; cases e
  rw [setU_ok _ hd, bind_ok] at e
  obtain ⟨b4, e4, r4⟩ := putChild_ok r (d := d) (c := c) (c' := c') hd hv
  rw [e4, bind_ok]
  cases e
  exact ⟨_, rfl, H.put hn ha r4⟩

end Hibit.Bytes
