import Verif.Builds.Model
/-!
# Every build agrees with the checked, portable build wherever that one succeeds
-/
namespace Hibit

/-- Whenever `m` succeeds, `m'` succeeds with the same result. -/
def Le {α : Type} (m m' : R α) : Prop := ∀ r, m = .ok r → m' = .ok r

theorem Le.refl {α : Type} (m : R α) : Le m m := fun _ h => h

theorem Le.bind {α β : Type} {m m' : R α} {f f' : α → R β} (h : Le m m')
    (hf : ∀ a, m = .ok a → Le (f a) (f' a)) : Le (m >>= f) (m' >>= f') := by
  intro r hr
  obtain ⟨a, ha, hfa⟩ := bind_inv hr
  rw [h a ha]
  exact hf a ha r hfa

theorem Le.bind_same {α β : Type} {m : R α} {f f' : α → R β}
    (hf : ∀ a, m = .ok a → Le (f a) (f' a)) : Le (m >>= f) (m >>= f') := Le.bind (.refl _) hf

theorem Le.ite {α : Type} {p : Prop} [Decidable p] {a a' b b' : R α} (h1 : p → Le a a') (h2 : ¬ p → Le b b') :
    Le (if p then a else b) (if p then a' else b') := by
  by_cases h : p
  · rw [if_pos h, if_pos h]; exact h1 h
  · rw [if_neg h, if_neg h]; exact h2 h

theorem Le.error {α : Type} {e : Err} {m : R α} : Le (.error e) m := fun _ h => by cases h

theorem Le.of_eq {α : Type} {m m' : R α} (h : m = m') : Le m m' := h ▸ .refl m

namespace Build
variable {B : Build}

theorem shl_le (p : Word) (n : Nat) : Le (shlP p n) (B.shl p n) := by
  unfold shlP shl
  exact Le.ite (fun _ => .refl _) (fun _ => .error)

theorem shr_le (p : Word) (n : Nat) : Le (shrP p n) (B.shr p n) := by
  unfold shrP shr
  exact Le.ite (fun _ => .refl _) (fun _ => .error)

theorem shAmt_le (e : Nat) : Le (Hibit.shAmt e) (B.shAmt e) := by
  unfold Hibit.shAmt shAmt
  exact Le.ite (fun _ => .refl _) (fun _ => .error)

theorem levelIndicesLoop_le (lw n rem : Nat) :
    Le (Hibit.levelIndicesLoop lw n rem) (B.levelIndicesLoop lw n rem) := by
  induction n generalizing rem with
  | zero => exact .refl _
  | succ n ih => exact .bind (shAmt_le _) fun e _ => .bind (ih _) fun _ _ => .refl _

theorem levelIndices_le (N D i : Nat) : Le (Hibit.levelIndices N D i) (B.levelIndices N D i) := by
  cases D with
  | zero => exact .refl _
  | succ d => exact levelIndicesLoop_le _ _ _

theorem levelIndicesLoop_length {lw n rem : Nat} {li : List Nat} (h : Hibit.levelIndicesLoop lw n rem = .ok li) :
    li.length = n + 1 := by
  induction n generalizing rem li with
  | zero => cases h; rfl
  | succ n ih =>
    obtain ⟨e, -, h⟩ := bind_inv h
    obtain ⟨rest, h1, h⟩ := bind_inv h
    cases h
    simp [ih h1]

theorem levelIndices_length {N D i : Nat} {li : List Nat} (h : Hibit.levelIndices N D i = .ok li) : li.length = D := by
  cases D with
  | zero => cases h
  | succ d => exact levelIndicesLoop_length h

theorem add_le {m a b : Nat} {β : Type} {f f' : Nat → R β} (h : Le (f (a + b)) (f' (a + b))) :
    Le (if a + b < m then f (a + b) else .error .panic) (B.add m a b >>= f') := by
  unfold add
  by_cases c : a + b < m
  · rw [if_pos c, if_pos c]; exact h
  · rw [if_neg c]; exact .error

theorem dataBlockIndexLoop_le (lw D : Nat) (li : List Nat) (todo n acc : Nat) :
    Le (Hibit.dataBlockIndexLoop lw D li todo n acc) (B.dataBlockIndexLoop lw D li todo n acc) := by
  induction todo generalizing n acc with
  | zero => exact .refl _
  | succ k ih =>
    exact .bind_same fun v _ => .bind (shAmt_le _) fun e _ => add_le (ih _ _)

theorem dataBlockIndex_le (N D : Nat) (li : List Nat) (i : Nat) :
    Le (Hibit.dataBlockIndex N D li i) (B.dataBlockIndex N D li i) := dataBlockIndexLoop_le _ _ _ _ _ _

theorem setBitUnchecked_le (flag : Bool) (w : Word) (i : Nat) :
    Le (Hibit.setBitUnchecked flag w i) (B.setBitUnchecked flag w i) :=
  .bind (shl_le _ _) fun _ _ => .refl _

theorem getBitUnchecked_le (w : Word) (i : Nat) : Le (Hibit.getBitUnchecked w i) (B.getBitUnchecked w i) :=
  .bind (shr_le _ _) fun _ _ => .refl _

theorem setBit_le (flag : Bool) (m : Mask) (i : Nat) : Le (Hibit.setBit flag m i) (B.setBit flag m i) := by
  unfold Hibit.setBit setBit
  refine Le.ite (fun _ => ?_) (fun _ => ?_)
  · exact .bind_same fun _ _ => .bind (setBitUnchecked_le _ _ _) fun _ _ => .refl _
  · exact .bind_same fun _ _ => .bind (setBitUnchecked_le _ _ _) fun _ _ => .refl _

theorem getBit_le (m : Mask) (i : Nat) : Le (Hibit.getBit m i) (B.getBit m i) := by
  unfold Hibit.getBit getBit
  refine Le.ite (fun _ => ?_) (fun _ => ?_)
  · exact .bind_same fun _ _ => getBitUnchecked_le _ _
  · exact .bind_same fun _ _ => getBitUnchecked_le _ _

/-! ## Loops -/

theorem visitList_le {σ : Type} {v v' : σ → Nat → R (σ × Bool)} (h : ∀ s i, Le (v s i) (v' s i)) (l : List Nat) (s : σ) :
    Le (visitList v l s) (visitList v' l s) := by
  induction l generalizing s with
  | nil => exact .refl _
  | cons a l ih => exact .bind (h _ _) fun _ _ => .ite (fun _ => .refl _) (fun _ => ih _)

theorem iterateAsRangeRev_le {σ : Type} {v v' : σ → Nat → R (σ × Bool)} (h : ∀ s i, Le (v s i) (v' s i)) (a n : Nat)
    (s : σ) : Le (iterateAsRangeRev v a n s) (iterateAsRangeRev v' a n s) := by
  induction n generalizing s with
  | zero => exact .refl _
  | succ n ih =>
    exact .bind (h _ _) fun _ _ => .ite (fun _ => .refl _) (fun _ => .ite (fun _ => .refl _) (fun _ => ih _))

theorem constLoop_le {σ : Type} {v v' : σ → Nat → R (σ × Bool)} (h : ∀ s i, Le (v s i) (v' s i)) (a b : Nat) (s : σ) :
    Le (constLoop a b v s) (constLoop a b v' s) := by
  by_cases c : b < 9 ∧ a ≤ b
  · rw [constLoop_eq _ _ _ _ c.1 c.2, constLoop_eq _ _ _ _ c.1 c.2]; exact visitList_le h _ _
  · unfold constLoop; rw [if_neg c]; exact .error

theorem constLoopRev_le {σ : Type} {v v' : σ → Nat → R (σ × Bool)} (h : ∀ s i, Le (v s i) (v' s i)) (a b : Nat) (s : σ) :
    Le (constLoopRev a b v s) (constLoopRev a b v' s) := by
  by_cases c : b < 9 ∧ a ≤ b
  · rw [constLoopRev_eq _ _ _ _ c.1 c.2, constLoopRev_eq _ _ _ _ c.1 c.2]; exact visitList_le h _ _
  · unfold constLoopRev; rw [if_neg c]; exact .error

theorem foldlM_le {σ : Type} {f f' : σ → Nat → R σ} (h : ∀ s i, Le (f s i) (f' s i)) (l : List Nat) (s : σ) :
    Le (l.foldlM f s) (l.foldlM f' s) := by
  induction l generalizing s with
  | nil => exact .refl _
  | cons a l ih => exact .bind (h _ _) fun p _ => ih _

/-! ## The interface -/

/-- `I'` does everything `I` does successfully, with the same results (`level_indices` of the right length, as all
callers pass). -/
structure ImplLe {S C δ : Type} (I I' : Impl S C δ) : Prop where
  N : I'.N = I.N
  D : I'.D = I.D
  exact : I'.exact = I.exact
  data : ∀ s i li, li.length = I.D → Le (I.data s i li) (I'.data s i li)
  dataU : ∀ s i li, li.length = I.D → Le (I.dataU s i li) (I'.dataU s i li)
  new : ∀ s, Le (I.new s) (I'.new s)
  select : ∀ c s n i, Le (I.select c s n i) (I'.select c s n i)
  selectU : ∀ c s n i, Le (I.selectU c s n i) (I'.selectU c s n i)
  curData : ∀ c s i, Le (I.curData c s i) (I'.curData c s i)
  curDataU : ∀ c s i, Le (I.curDataU c s i) (I'.curDataU c s i)

section
variable {S C δ : Type} {I I' : Impl S C δ} (h : ImplLe I I')
include h

theorem get_le (s : S) (k : Nat) : Le (I.get s k) (B.get I' s k) := by
  unfold Impl.get get
  rw [h.N, h.D]
  exact .bind_same fun i _ => .bind (levelIndices_le _ _ _) fun li hli => h.data _ _ _ (levelIndices_length hli)

theorem getUnchecked_le (s : S) (k : Nat) : Le (I.getU s k) (B.getUnchecked I' s k) := by
  unfold Impl.getU getUnchecked
  rw [h.N, h.D]
  exact .bind (levelIndices_le _ _ _) fun li hli => h.dataU _ _ _ (levelIndices_length hli)

theorem iterNew_le (s : S) : Le (I.iterNew s) (I'.iterNew s) := by
  unfold Impl.iterNew
  rw [h.N, h.D]
  exact .bind (h.new _) fun _ _ => .bind (h.selectU _ _ _ _) fun _ _ => .refl _

theorem iterVisit_le (s : S) (st : IterSt C) (i : Nat) : Le (I.iterVisit s st i) (I'.iterVisit s st i) := by
  refine .bind_same fun it _ => .bind_same fun p _ => .bind_same fun iters _ => ?_
  obtain ⟨o, it'⟩ := p
  cases o with
  | none => exact .refl _
  | some index => exact .bind_same fun _ _ => .bind (h.selectU _ _ _ _) fun _ _ => .refl _

theorem iterLoop_le (s : S) (fuel : Nat) (st : IterSt C) : Le (I.iterLoop s fuel st) (I'.iterLoop s fuel st) := by
  induction fuel generalizing st with
  | zero => exact .refl _
  | succ fuel ih =>
    refine .bind_same fun it _ => .bind_same fun p _ => ?_
    obtain ⟨o, it'⟩ := p
    cases o with
    | some index => exact .refl _
    | none =>
      rw [h.D]
      exact .bind (iterateAsRangeRev_le (iterVisit_le h s) _ _ _) fun _ _ => .ite (fun _ => ih _) (fun _ => .refl _)

theorem iterNext_le (s : S) (fuel : Nat) (st : IterSt C) :
    Le (I.iterNext s fuel st) (B.iterNext I' s fuel st) := by
  unfold Impl.iterNext iterNext
  rw [h.N, h.D]
  refine .bind (iterLoop_le h s fuel st) fun p _ => ?_
  obtain ⟨o, st⟩ := p
  cases o with
  | none => exact .refl _
  | some i => exact .bind (h.curDataU _ _ _) fun _ _ => .bind (dataBlockIndex_le _ _ _ _) fun _ _ => .refl _

theorem iterTake_le (s : S) (fuel n : Nat) (st : IterSt C) :
    Le (I.iterTake s fuel n st) (B.iterTake I' s fuel n st) := by
  induction n generalizing st with
  | zero => exact .refl _
  | succ n ih => exact .bind (iterNext_le h _ _ _) fun _ _ => .bind (ih _) fun _ _ => .refl _

theorem iterRun_le (s : S) (fuel n : Nat) : Le (I.iterRun s fuel n) (B.iterRun I' s fuel n) :=
  .bind (iterNew_le h s) fun _ _ => iterTake_le h _ _ _ _

theorem map_le {ε : Type} (f : δ → ε) : ImplLe (mapImpl I f) (mapImpl I' f) where
  N := h.N
  D := h.D
  exact := h.exact
  data := fun _ _ _ hl => .bind (h.data _ _ _ hl) fun _ _ => .refl _
  dataU := fun _ _ _ hl => .bind (h.dataU _ _ _ hl) fun _ _ => .refl _
  new := h.new
  select := h.select
  selectU := h.selectU
  curData := fun _ _ _ => .bind (h.curData _ _ _) fun _ _ => .refl _
  curDataU := fun _ _ _ => .bind (h.curDataU _ _ _) fun _ _ => .refl _

end

theorem fold_le {S C δ β : Type} {I I' : Impl S C (List δ)} (h : ImplLe I I') (init : β) (f : β → δ → β) :
    ImplLe (foldImpl I init f) (foldImpl I' init f) where
  N := h.N
  D := h.D
  exact := h.exact
  data := fun _ _ _ hl => .bind (h.data _ _ _ hl) fun _ _ => .refl _
  dataU := fun _ _ _ hl => .bind (h.dataU _ _ _ hl) fun _ _ => .refl _
  new := h.new
  select := h.select
  selectU := h.selectU
  curData := fun _ _ _ => .bind (h.curData _ _ _) fun _ _ => .refl _
  curDataU := fun _ _ _ => .bind (h.curDataU _ _ _) fun _ _ => .refl _

section
variable {S0 C0 δ0 S1 C1 δ1 : Type} {I0 I0' : Impl S0 C0 δ0} {I1 I1' : Impl S1 C1 δ1}

theorem union_le (h0 : ImplLe I0 I0') (h1 : ImplLe I1 I1') (hD : I0.D = I1.D) :
    ImplLe (unionImpl I0 I1) (unionImpl I0' I1') where
  N := h0.N
  D := h0.D
  exact := by simp only [unionImpl, h0.exact, h1.exact]
  data := fun _ _ _ hl => .bind (h0.data _ _ _ hl) fun _ _ => .bind (h1.data _ _ _ (hl.trans hD)) fun _ _ => .refl _
  dataU := fun _ _ _ hl => .bind (.bind (h0.data _ _ _ hl) fun _ _ => .bind (h1.data _ _ _ (hl.trans hD)) fun _ _ =>
    .refl _) fun _ _ => .refl _
  new := fun _ => .bind (h0.new _) fun _ _ => .bind (h1.new _) fun _ _ => .refl _
  select := fun _ _ _ _ => .bind (h0.select _ _ _ _) fun _ _ => .bind (h1.select _ _ _ _) fun _ _ => .refl _
  selectU := fun _ _ _ _ => .bind (h0.select _ _ _ _) fun _ _ => .bind (h1.select _ _ _ _) fun _ _ => .refl _
  curData := fun _ _ _ => .bind (h0.curData _ _ _) fun _ _ => .bind (h1.curData _ _ _) fun _ _ => .refl _
  curDataU := fun _ _ _ => .bind (.bind (h0.curData _ _ _) fun _ _ => .bind (h1.curData _ _ _) fun _ _ => .refl _)
    fun _ _ => .refl _

theorem inter_le (h0 : ImplLe I0 I0') (h1 : ImplLe I1 I1') (hD : I0.D = I1.D) :
    ImplLe (interImpl I0 I1) (interImpl I0' I1') where
  N := h0.N
  D := h0.D
  exact := rfl
  data := fun _ _ _ hl => .bind (h0.data _ _ _ hl) fun _ _ => .bind (h1.data _ _ _ (hl.trans hD)) fun _ _ => .refl _
  dataU := fun _ _ _ hl => .bind (h0.dataU _ _ _ hl) fun _ _ => .bind (h1.dataU _ _ _ (hl.trans hD)) fun _ _ => .refl _
  new := fun _ => .bind (h0.new _) fun _ _ => .bind (h1.new _) fun _ _ => .refl _
  select := fun _ _ _ _ => .bind (h0.select _ _ _ _) fun _ _ => .bind (h1.select _ _ _ _) fun _ _ => .refl _
  selectU := fun _ _ _ _ => .bind (h0.selectU _ _ _ _) fun _ _ => .bind (h1.selectU _ _ _ _) fun _ _ => .refl _
  curData := fun _ _ _ => .bind (h0.curData _ _ _) fun _ _ => .bind (h1.curData _ _ _) fun _ _ => .refl _
  curDataU := fun _ _ _ => .bind (h0.curDataU _ _ _) fun _ _ => .bind (h1.curDataU _ _ _) fun _ _ => .refl _

end

/-! ## Multi operations -/
section
variable {S C δ : Type}

theorem muGather_le {d d' : S → R (Option δ)} (h : ∀ s, Le (d s) (d' s)) (ss : List S) (acc : List δ) :
    Le (muGather d ss acc) (muGather d' ss acc) := by
  induction ss generalizing acc with
  | nil => exact .refl _
  | cons s ss ih =>
    refine .bind (h s) fun o _ => ?_
    cases o with
    | none => exact ih _
    | some d => exact .bind_same fun _ _ => ih _

theorem muGatherU_le {d d' : S → R (Option δ)} (h : ∀ s, Le (d s) (d' s)) (ss : List S) :
    Le (muGatherU d ss) (muGatherU d' ss) := by
  induction ss with
  | nil => exact .refl _
  | cons s ss ih => exact .bind (h s) fun o _ => .bind ih fun _ _ => .refl _

theorem miGather_le {d d' : S → R (Option δ)} (h : ∀ s, Le (d s) (d' s)) (ss : List S) (acc : List δ) :
    Le (miGather d ss acc) (miGather d' ss acc) := by
  induction ss generalizing acc with
  | nil => exact .refl _
  | cons s ss ih =>
    refine .bind (h s) fun o _ => ?_
    cases o with
    | none => exact .refl _
    | some d => exact .bind_same fun _ _ => ih _

theorem miGatherU_le {d d' : S → R δ} (h : ∀ s, Le (d s) (d' s)) (ss : List S) :
    Le (miGatherU d ss) (miGatherU d' ss) := by
  induction ss with
  | nil => exact .refl _
  | cons s ss ih => exact .bind (h s) fun o _ => .bind ih fun _ _ => .refl _

theorem avCursors_le {new new' : S → R C} (h : ∀ s, Le (new s) (new' s)) (ss : List S) (acc : List (S × C)) :
    Le (avCursors new ss acc) (avCursors new' ss acc) := by
  induction ss generalizing acc with
  | nil => exact .refl _
  | cons s ss ih => exact .bind (h s) fun _ _ => .bind_same fun _ _ => ih _

theorem miCursors_le {new new' : S → R C} (h : ∀ s, Le (new s) (new' s)) (ss : List S) (acc : List C) :
    Le (miCursors new ss acc) (miCursors new' ss acc) := by
  induction ss generalizing acc with
  | nil => exact .refl _
  | cons s ss ih => exact .bind (h s) fun _ _ => .bind_same fun _ _ => ih _

variable {I I' : Impl S C δ} (h : ImplLe I I')
include h

theorem muSelectRoot_le (i : Nat) (cs : List (S × C)) (acc : Mask) :
    Le (muSelectRoot I i cs acc) (muSelectRoot I' i cs acc) := by
  induction cs generalizing acc with
  | nil => exact .refl _
  | cons c cs ih => exact .bind (h.select _ _ _ _) fun _ _ => .bind (ih _) fun _ _ => .refl _

theorem muSelectSome_le (n i : Nat) (ks : List Nat) (cs : List (S × C)) (ne : List Nat) (acc : Mask) :
    Le (muSelectSome I n i ks cs ne acc) (muSelectSome I' n i ks cs ne acc) := by
  induction ks generalizing cs ne acc with
  | nil => exact .refl _
  | cons k ks ih =>
    refine .bind_same fun _ _ => .bind (h.select _ _ _ _) fun p _ => .bind_same fun _ _ => ?_
    exact .ite (fun _ => .bind_same fun _ _ => ih _ _ _) (fun _ => .bind_same fun _ _ => ih _ _ _)

theorem muSelect_le (c : MUCursor S C) (n i : Nat) : Le (muSelect I c n i) (muSelect I' c n i) := by
  unfold muSelect
  rw [h.N]
  refine Le.ite (fun _ => ?_) (fun _ => ?_)
  · exact .bind (muSelectRoot_le h _ _ _) fun _ _ => .refl _
  · refine .bind_same fun _ _ => .ite (fun _ => .bind_same fun _ _ => ?_) (fun _ => .bind_same fun _ _ => ?_)
    · exact .bind (muSelectSome_le h _ _ _ _ _ _) fun _ _ => .refl _
    · exact .bind (muSelectSome_le h _ _ _ _ _ _) fun _ _ => .refl _

theorem muCursorData_le (cs : List (S × C)) (i : Nat) (ks : List Nat) :
    Le (muCursorData I cs i ks) (muCursorData I' cs i ks) := by
  induction ks with
  | nil => exact .refl _
  | cons k ks ih => exact .bind_same fun _ _ => .bind (h.curData _ _ _) fun _ _ => .bind ih fun _ _ => .refl _

theorem muCurData_le (c : MUCursor S C) (i : Nat) : Le (muCurData I c i) (muCurData I' c i) := by
  unfold muCurData
  rw [h.D]
  refine Le.ite (fun _ => .refl _) (fun _ => .bind_same fun _ _ => .ite (fun _ => .refl _) (fun _ => ?_))
  exact .bind (muCursorData_le h _ _ _) fun _ _ => .refl _

theorem multiUnion_le : ImplLe (multiUnionImpl I) (multiUnionImpl I') where
  N := h.N
  D := h.D
  exact := h.exact
  data := fun _ _ _ hl => .bind (muGather_le (fun _ => h.data _ _ _ hl) _ _) fun _ _ => .refl _
  dataU := fun _ _ _ hl => muGatherU_le (fun _ => h.data _ _ _ hl) _
  new := fun _ => .bind (avCursors_le h.new _ _) fun _ _ => .of_eq (by rw [h.D])
  select := fun _ _ _ _ => muSelect_le h _ _ _
  selectU := fun _ _ _ _ => muSelect_le h _ _ _
  curData := fun _ _ _ => muCurData_le h _ _
  curDataU := fun _ _ _ => .bind (muCurData_le h _ _) fun _ _ => .refl _

theorem miCursorData_le (i : Nat) (cs : List C) (ss : List S) :
    Le (miCursorData I i cs ss) (miCursorData I' i cs ss) := by
  induction cs generalizing ss with
  | nil => exact .refl _
  | cons c cs ih => exact .bind_same fun _ _ => .bind (h.curDataU _ _ _) fun _ _ => .bind (ih _) fun _ _ => .refl _

omit h in
theorem miSelectRest_le {sel sel' : C → S → R (Mask × C)} (hs : ∀ c s, Le (sel c s) (sel' c s)) (cs : List C)
    (ss : List S) (acc : Mask) : Le (miSelectRest sel cs ss acc) (miSelectRest sel' cs ss acc) := by
  induction cs generalizing ss acc with
  | nil => exact .refl _
  | cons c cs ih => exact .bind_same fun _ _ => .bind (hs _ _) fun _ _ => .bind (ih _ _) fun _ _ => .refl _

omit h in
theorem miSelectAll_le {sel sel' : C → S → R (Mask × C)} (hs : ∀ c s, Le (sel c s) (sel' c s)) (cs : List C)
    (ss : List S) : Le (miSelectAll sel cs ss) (miSelectAll sel' cs ss) := by
  cases cs with
  | nil => exact .refl _
  | cons c cs => exact .bind_same fun _ _ => .bind (hs _ _) fun _ _ => .bind (miSelectRest_le hs _ _ _) fun _ _ => .refl _

theorem miSelect_le (c : MICursor C) (ss : List S) (n i : Nat) : Le (miSelect I c ss n i) (miSelect I' c ss n i) := by
  unfold miSelect
  rw [h.N, h.D]
  refine Le.ite (fun _ => .refl _) (fun _ => ?_)
  exact .bind (miSelectAll_le (fun _ _ => h.select _ _ _ _) _ _) fun _ _ => .refl _

theorem miSelectU_le (c : MICursor C) (ss : List S) (n i : Nat) :
    Le (miSelectU I c ss n i) (miSelectU I' c ss n i) := by
  unfold miSelectU
  rw [h.N]
  exact .bind (miSelectAll_le (fun _ _ => h.selectU _ _ _ _) _ _) fun _ _ => .refl _

theorem multiInter_le : ImplLe (Hibit.multiInterImpl I) (B.multiInterImpl I') where
  N := h.N
  D := h.D
  exact := rfl
  data := fun _ _ _ hl => miGather_le (fun _ => h.data _ _ _ hl) _ _
  dataU := fun _ _ _ hl => miGatherU_le (fun _ => h.dataU _ _ _ hl) _
  new := fun _ => .bind (miCursors_le h.new _ _) fun _ _ => .of_eq (by rw [h.N])
  select := fun _ _ _ _ => miSelect_le h _ _ _ _
  selectU := fun _ _ _ _ => miSelectU_le h _ _ _ _
  curData := fun _ _ _ => .bind (getBit_le _ _) fun _ _ => .ite (fun _ => .refl _)
    (fun _ => .bind (miCursorData_le h _ _ _) fun _ _ => .refl _)
  curDataU := fun _ _ _ => miCursorData_le h _ _ _

end
end Build
end Hibit
