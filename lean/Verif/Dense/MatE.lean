import Verif.ClosuresSafe
import Verif.Dense.MatLemmas
/-!
# `materialize` of a tree whose closures have effects

`src/dense_tree/from.rs` as in `Dense/Materialize`, with the source's `data_unchecked` (which runs the closures
of `map` and `multi_map_fold`) in `EM σ`. The new tree's nodes and vectors are not visible to the closures.
-/
namespace Hibit.Dense
open Hibit

/-! ## The model -/

/-- `mask.traverse_bits(body)` with a body that runs closures: a panic ends the traversal, and the body itself
always returns `Continue` (from.rs:40-48, 77-90, 124-131). -/
def traverseE {σ τ : Type} (body : τ → Nat → EM σ τ) (st : τ) (m : Mask) : EM σ τ := fun z => do
  let (r, _) ← traverseBits (σ := R (Outcome τ × σ))
    (fun r i =>
      match r >>= fun oz =>
          match oz with
          | (.returned st, z) => body st i z
          | (.panicked, z) => .ok (.panicked, z) with
      | .ok (.returned st, z) => (.ok (.returned st, z), false)
      | .ok (.panicked, z) => (.ok (.panicked, z), true)
      | .error e => (.error e, true)) (.ok (.returned st, z)) m
  r

section
variable {S C σ α : Type}

/-- The closure body of from.rs:40-47. -/
def terminalBodyE (I : EImpl S C σ α) (s : S) (a keyAcc : Nat) (st : MSt C α) (index : Nat) :
    EM σ (MSt C α) := do
  let data ← I.curDataU st.cur s index
  let key ← EM.lift (addUsize keyAcc index)
  let p := pushData st key data
  let h ← EM.lift (rawPush p.1.heap .term a (.idx p.2))
  return { p.1 with heap := h }

/-- from.rs:28-50 `make_terminal_node`. -/
def makeTerminalNodeE (I : EImpl S C σ α) (s : S) (st : MSt C α) (mask : Word) (cap keyAcc : Nat) :
    EM σ (MSt C α × Nat) := do
  let p := rawNew st.heap .term cap mask
  let st ← traverseE (terminalBodyE I s p.2 keyAcc) { st with heap := p.1 } [mask]
  let h ← EM.lift (rawFinalize st.heap .term p.2 (.idx 0))
  return ({ st with heap := h }, p.2)

/-- The closure body of from.rs:77-90; `rec` is the recursive call. -/
def exactBodyE (D n a keyAcc : Nat) (rec : MSt C α → Nat → Nat → EM σ (MSt C α × Nat))
    (st : MSt C α) (index : Nat) : EM σ (MSt C α) := do
  let b ← EM.lift (blockStart D n index)
  let keyAcc ← EM.lift (addUsize keyAcc b)
  let p ← rec st index keyAcc
  let h ← EM.lift (rawPush p.1.heap .branch a (.ptr (.heap p.2)))
  return { p.1 with heap := h }

/-- from.rs:53-94 `from_exact_sparse_hierarchy`. -/
def fromExactE (I : EImpl S C σ α) (s : S) : (left : Nat) → MSt C α → (index keyAcc : Nat) →
    EM σ (MSt C α × Nat)
  | 0, st, index, keyAcc =>
    if I.base.exact = true then do
      let mc ← EM.lift (I.base.selectU st.cur s (I.base.D - 1) index)
      let mask ← EM.lift (getU mc.1 0)
      let cap ← EM.lift (capOf mask)
      makeTerminalNodeE I s { st with cur := mc.2 } mask cap keyAcc
    else EM.lift (.error .panic)
  | left + 1, st, index, keyAcc =>
    if I.base.exact = true then do
      let n := I.base.D - 1 - (left + 1)
      let mc ← EM.lift (I.base.selectU st.cur s n index)
      let mask ← EM.lift (getU mc.1 0)
      let cap ← EM.lift (capOf mask)
      let p := rawNew st.heap .branch cap mask
      let st ← traverseE (exactBodyE I.base.D n p.2 keyAcc (fromExactE I s left))
        { st with heap := p.1, cur := mc.2 } [mask]
      let e ← EM.lift (emptyNode (n + 1) I.base.D)
      let h ← EM.lift (rawFinalize st.heap .branch p.2 (.ptr e))
      return ({ st with heap := h }, p.2)
    else EM.lift (.error .panic)

/-- The closure body of from.rs:124-131. -/
def sparseBodyE (D n keyAcc : Nat) (rec : MSt C α → Nat → Nat → EM σ (MSt C α × Option Nat))
    (v : SSt C α) (index : Nat) : EM σ (SSt C α) := do
  let b ← EM.lift (blockStart D n index)
  let keyAcc ← EM.lift (addUsize keyAcc b)
  let p ← rec v.st index keyAcc
  match p.2 with
  | some c => do
    let q ← EM.lift (setBitUnchecked true v.nodeMask index)
    if v.childs.length < 64 then
      return ⟨p.1, q.2, v.childs ++ [.ptr (.heap c)]⟩
    else EM.lift (.error .ub)
  | none => return { v with st := p.1 }

/-- from.rs:97-137 `from_sparse_hierarchy`. -/
def fromSparseE (I : EImpl S C σ α) (s : S) : (left : Nat) → MSt C α → (index keyAcc : Nat) →
    EM σ (MSt C α × Option Nat)
  | 0, st, index, keyAcc => do
    let mc ← EM.lift (I.base.selectU st.cur s (I.base.D - 1) index)
    let mask ← EM.lift (getU mc.1 0)
    let cap ← EM.lift (capOf mask)
    let p ← makeTerminalNodeE I s { st with cur := mc.2 } mask cap keyAcc
    return (p.1, some p.2)
  | left + 1, st, index, keyAcc => do
    let n := I.base.D - 1 - (left + 1)
    let mc ← EM.lift (I.base.selectU st.cur s n index)
    let mask ← EM.lift (getU mc.1 0)
    let v ← traverseE (sparseBodyE I.base.D n keyAcc (fromSparseE I s left))
      ⟨{ st with cur := mc.2 }, 0, []⟩ [mask]
    if v.childs.isEmpty then return (v.st, none)
    else do
      let e ← EM.lift (emptyNode (n + 1) I.base.D)
      let p := fromParts v.st.heap v.nodeMask v.childs (.ptr e)
      return ({ v.st with heap := p.1 }, some p.2)

/-- from.rs:169-178: the root. -/
def fromRootE (I : EImpl S C σ α) (s : S) (st : MSt C α) : EM σ (MSt C α × Nat) :=
  if I.base.exact = true then fromExactE I s (I.base.D - 1) st 0 0
  else do
    let p ← fromSparseE I s (I.base.D - 1) st 0 0
    let a ← EM.lift (unwrapU p.2)
    return (p.1, a)

/-- from.rs:153-181. `glue`: dropping a `T` does something. A panic of a closure unwinds through this function and
drops the captured `Vec<T>`, whose element 0 was never written (from.rs:155-158): undefined behaviour if `T` has drop
glue (`C49_fails_materialize`). -/
def materializeE (glue : Bool) (I : EImpl S C σ α) (s : S) : EM σ (DT α) := fun z => do
  let cur ← I.base.new s
  let (o, z) ← fromRootE I s ⟨⟨fun _ => none, 0⟩, cur, [none], [usizeMod - 1]⟩ z
  match o with
  | .returned p => return (.returned ⟨p.1.heap, .heap p.2, p.1.data, p.1.keys⟩, z)
  | .panicked => if glue then .error .ub else return (.panicked, z)

end

/-! ## Traversals -/

theorem traverseE_eq {σ τ : Type} (body : τ → Nat → EM σ τ) (st : τ) (m : Mask) :
    traverseE body st m = m.ones.foldlM body st := by
  funext z
  unfold traverseE
  rw [traverseBits_eq]
  simp only [bind_ok]
  generalize m.ones = l
  induction l generalizing st z with
  | nil => rfl
  | cons a l ih =>
    rw [List.foldlM_cons]
    show _ = (do
      let (o, z) ← body st a z
      match o with
      | .returned a => l.foldlM body a z
      | .panicked => return (.panicked, z))
    simp only [feed, bind_ok]
    obtain ⟨st', z', h⟩ | ⟨z', h⟩ | ⟨e, h⟩ : (∃ st' z', body st a z = .ok (.returned st', z')) ∨
        (∃ z', body st a z = .ok (.panicked, z')) ∨ ∃ e, body st a z = .error e := by
      cases body st a z with
      | error e => exact .inr (.inr ⟨e, rfl⟩)
      | ok oz =>
        obtain ⟨o, z'⟩ := oz
        cases o with
        | panicked => exact .inr (.inl ⟨z', rfl⟩)
        | returned st' => exact .inl ⟨st', z', rfl⟩
    · simp only [h, Bool.false_eq_true, if_false, bind_ok]
      exact ih st' z'
    · simp [h]
    · simp [h]

/-! ## Without closures -/

theorem EM.lift_bind {σ β γ : Type} (r : R β) (f : β → R γ) :
    (EM.lift (r >>= f) : EM σ γ) = EM.lift r >>= fun b => EM.lift (f b) := by
  funext z
  cases r <;> rfl

theorem EM.lift_foldlM {σ β τ : Type} (f : τ → β → R τ) : ∀ (l : List β) (st : τ),
    l.foldlM (fun st b => (EM.lift (f st b) : EM σ τ)) st = EM.lift (l.foldlM f st)
  | [], st => rfl
  | b :: l, st => by
    rw [List.foldlM_cons, List.foldlM_cons, EM.lift_bind]
    exact EM.bind_congr fun st' => EM.lift_foldlM f l st'

theorem traverseE_lift {σ τ : Type} {f : τ → Nat → R τ} {g : τ → Nat → EM σ τ}
    (h : ∀ st i, g st i = EM.lift (f st i)) (st : τ) (m : Mask) :
    traverseE g st m = EM.lift (traverseM f st m) := by
  have : g = fun st i => EM.lift (f st i) := by funext st i; exact h st i
  rw [traverseE_eq, traverseM_eq, this, EM.lift_foldlM]

section
variable {S C σ α : Type} (J : Impl S C α) (s : S)

theorem terminalBodyE_leaf (a keyAcc : Nat) (st : MSt C α) (i : Nat) :
    terminalBodyE (eleaf (σ := σ) J) s a keyAcc st i = EM.lift (terminalBody J s a keyAcc st i) := by
  unfold terminalBodyE terminalBody
  rw [EM.lift_bind]
  refine EM.bind_congr fun d => ?_
  rw [EM.lift_bind]
  refine EM.bind_congr fun k => ?_
  simp only [pushData]
  rw [EM.lift_bind]
  rfl

theorem makeTerminalNodeE_leaf (st : MSt C α) (mask : Word) (cap keyAcc : Nat) :
    makeTerminalNodeE (eleaf (σ := σ) J) s st mask cap keyAcc =
      EM.lift (makeTerminalNode J s st mask cap keyAcc) := by
  unfold makeTerminalNodeE makeTerminalNode
  simp only [rawNew, Heap.alloc]
  rw [EM.lift_bind, traverseE_lift (terminalBodyE_leaf J s _ _)]
  refine EM.bind_congr fun st => ?_
  rw [EM.lift_bind]
  rfl

theorem fromExactE_leaf : ∀ (left : Nat) (st : MSt C α) (index keyAcc : Nat),
    fromExactE (eleaf (σ := σ) J) s left st index keyAcc = EM.lift (fromExact J s left st index keyAcc)
  | 0, st, index, keyAcc => by
    unfold fromExactE fromExact
    show (if J.exact = true then _ else _) = _
    split
    · rw [EM.lift_bind]
      refine EM.bind_congr fun mc => ?_
      rw [EM.lift_bind]
      refine EM.bind_congr fun mask => ?_
      rw [EM.lift_bind]
      refine EM.bind_congr fun cap => ?_
      exact makeTerminalNodeE_leaf J s _ _ _ _
    · rfl
  | left + 1, st, index, keyAcc => by
    unfold fromExactE fromExact
    show (if J.exact = true then _ else _) = _
    split
    · rw [EM.lift_bind]
      refine EM.bind_congr fun mc => ?_
      rw [EM.lift_bind]
      refine EM.bind_congr fun mask => ?_
      rw [EM.lift_bind]
      refine EM.bind_congr fun cap => ?_
      simp only [rawNew, Heap.alloc]
      rw [EM.lift_bind, traverseE_lift (f := exactBody J.D (J.D - 1 - (left + 1)) st.heap.next keyAcc (fromExact J s left))
        (fun st i => by
          unfold exactBodyE exactBody
          rw [EM.lift_bind]
          refine EM.bind_congr fun b => ?_
          rw [EM.lift_bind]
          refine EM.bind_congr fun k => ?_
          rw [EM.lift_bind, fromExactE_leaf left]
          refine EM.bind_congr fun p => ?_
          rw [EM.lift_bind]
          rfl)]
      refine EM.bind_congr fun st => ?_
      rw [EM.lift_bind]
      refine EM.bind_congr fun e => ?_
      rw [EM.lift_bind]
      rfl
    · rfl

theorem fromSparseE_leaf : ∀ (left : Nat) (st : MSt C α) (index keyAcc : Nat),
    fromSparseE (eleaf (σ := σ) J) s left st index keyAcc = EM.lift (fromSparse J s left st index keyAcc)
  | 0, st, index, keyAcc => by
    unfold fromSparseE fromSparse
    rw [EM.lift_bind]
    refine EM.bind_congr fun mc => ?_
    rw [EM.lift_bind]
    refine EM.bind_congr fun mask => ?_
    rw [EM.lift_bind]
    refine EM.bind_congr fun cap => ?_
    rw [EM.lift_bind, makeTerminalNodeE_leaf J s _ _ _ _]
    rfl
  | left + 1, st, index, keyAcc => by
    unfold fromSparseE fromSparse
    rw [EM.lift_bind]
    refine EM.bind_congr fun mc => ?_
    rw [EM.lift_bind]
    refine EM.bind_congr fun mask => ?_
    rw [EM.lift_bind, traverseE_lift (f := sparseBody J.D (J.D - 1 - (left + 1)) keyAcc (fromSparse J s left))
      (fun st i => by
        unfold sparseBodyE sparseBody
        rw [EM.lift_bind]
        refine EM.bind_congr fun b => ?_
        rw [EM.lift_bind]
        refine EM.bind_congr fun k => ?_
        rw [EM.lift_bind, fromSparseE_leaf left]
        refine EM.bind_congr fun p => ?_
        obtain ⟨p1, p2⟩ := p
        cases p2 with
        | none => rfl
        | some c =>
          simp only
          rw [EM.lift_bind]
          refine EM.bind_congr fun q => ?_
          split <;> rfl)]
    refine EM.bind_congr fun v => ?_
    split
    · rfl
    · rw [EM.lift_bind]
      rfl

/-- Without closures this is the `materialize` of `Dense/Materialize`. -/
theorem materializeE_leaf (glue : Bool) (z : σ) :
    materializeE glue (eleaf (σ := σ) J) s z = (do
      let t ← materialize J s
      return (.returned t, z)) := by
  unfold materializeE materialize
  have e : ∀ st, fromRootE (eleaf (σ := σ) J) s st = EM.lift (fromRoot J s st) := by
    intro st
    unfold fromRootE fromRoot
    show (if J.exact = true then _ else _) = _
    split
    · exact fromExactE_leaf J s _ _ _ _
    · rw [EM.lift_bind]
      show fromSparseE (eleaf J) s _ _ _ _ >>= _ = _
      rw [fromSparseE_leaf]
      refine EM.bind_congr fun p => ?_
      rw [EM.lift_bind]
      rfl
  show (J.new s >>= _) = _
  cases J.new s with
  | error e => rfl
  | ok c =>
    simp only [bind_ok, e]
    cases h : fromRoot J s ⟨⟨fun _ => none, 0⟩, c, [none], [usizeMod - 1]⟩ with
    | error e => simp [EM.lift]
    | ok p => simp [EM.lift]

end
/-! ## Running next to an oracle

`I'` is a pure tree whose values carry their keys and say what the closures of `I` will return; the elements
come in the order of the list `Df`. `Z j` is the state of the closures when `j` elements have been computed;
element number `J` panics, with state `zP`. -/

section
variable {S C C' σ ω α : Type}

/-- The code `m` with closures follows the pure code `m'`, which extends the vector `d` to `d'`. -/
def SimE (Df : List (Option (Nat × ω))) (J : Nat) (Z : Nat → σ) (zP : σ) {ρ' ρ : Type}
    (d : List (Option (Nat × ω))) (m' : R ρ') (m : EM σ ρ) (dat : ρ' → List (Option (Nat × ω)))
    (F : ρ' → ρ) : Prop :=
  ∀ r', m' = .ok r' → d <+: dat r' ∧ (1 ≤ d.length → dat r' <+: Df →
    ((dat r').length ≤ J + 1 →
      m (Z (d.length - 1)) = .ok (.returned (F r'), Z ((dat r').length - 1))) ∧
    (d.length ≤ J + 1 → J + 1 < (dat r').length → m (Z (d.length - 1)) = .ok (.panicked, zP)))

variable {Df : List (Option (Nat × ω))} {J : Nat} {Z : Nat → σ} {zP : σ} {ρ' ρ τ' τ : Type}
variable {d : List (Option (Nat × ω))}

theorem SimE.bind {m' : R ρ'} {m : EM σ ρ} {dat : ρ' → List (Option (Nat × ω))} {F : ρ' → ρ}
    {f' : ρ' → R τ'} {f : ρ → EM σ τ} {dat2 : τ' → List (Option (Nat × ω))} {F2 : τ' → τ}
    (h : SimE Df J Z zP d m' m dat F)
    (h2 : ∀ r', SimE Df J Z zP (dat r') (f' r') (f (F r')) dat2 F2) :
    SimE Df J Z zP d (m' >>= f') (m >>= f) dat2 F2 := by
  intro r2 e
  obtain ⟨r1, e1, e2⟩ := bind_inv e
  obtain ⟨p1, q1⟩ := h r1 e1
  obtain ⟨p2, q2⟩ := h2 r1 r2 e2
  refine ⟨p1.trans p2, fun hd hf => ?_⟩
  have l1 := p1.length_le
  have l2 := p2.length_le
  obtain ⟨a1, b1⟩ := q1 hd (p2.trans hf)
  obtain ⟨a2, b2⟩ := q2 (by omega) hf
  constructor
  · intro hj
    show (m (Z (d.length - 1)) >>= _) = _
    rw [a1 (by omega)]
    exact a2 hj
  · intro hj hj2
    show (m (Z (d.length - 1)) >>= _) = _
    by_cases hm : (dat r1).length ≤ J + 1
    · rw [a1 hm]; exact b2 hm hj2
    · rw [b1 hj (by omega)]; rfl

theorem SimE.lift {β : Type} {r : R β} {f' : β → R τ'} {f : β → EM σ τ}
    {dat2 : τ' → List (Option (Nat × ω))} {F2 : τ' → τ}
    (h : ∀ b, SimE Df J Z zP d (f' b) (f b) dat2 F2) :
    SimE Df J Z zP d (r >>= f') (EM.lift r >>= f) dat2 F2 := by
  cases r with
  | error e => intro r' e; cases e
  | ok b => rw [EM.lift_ok, EM.pure_bind]; exact h b

theorem SimE.lift2 {β' β : Type} {r' : R β'} {r : R β} (g : β' → β) (hr : ∀ b, r' = .ok b → r = .ok (g b))
    {f' : β' → R τ'} {f : β → EM σ τ} {dat2 : τ' → List (Option (Nat × ω))} {F2 : τ' → τ}
    (h : ∀ b, SimE Df J Z zP d (f' b) (f (g b)) dat2 F2) :
    SimE Df J Z zP d (r' >>= f') (EM.lift r >>= f) dat2 F2 := by
  cases r' with
  | error e => intro r' e; cases e
  | ok b => rw [hr b rfl, EM.lift_ok, EM.pure_bind]; exact h b

theorem SimE.ret {r' : ρ'} {r : ρ} {dat : ρ' → List (Option (Nat × ω))} {F : ρ' → ρ}
    (hd : dat r' = d) (hF : F r' = r) : SimE Df J Z zP d (.ok r') (pure r) dat F := by
  intro r2 e
  cases e
  rw [hd, hF]
  exact ⟨List.prefix_rfl, fun _ _ => ⟨fun _ => rfl, fun h1 h2 => by omega⟩⟩

theorem SimE.err {e : Err} {m : EM σ ρ} {dat : ρ' → List (Option (Nat × ω))} {F : ρ' → ρ} :
    SimE Df J Z zP d (.error e) m dat F := by intro r e; cases e

theorem SimE.fold {body' : τ' → Nat → R τ'} {body : τ → Nat → EM σ τ}
    {dat : τ' → List (Option (Nat × ω))} {F : τ' → τ}
    (h : ∀ st' i, SimE Df J Z zP (dat st') (body' st' i) (body (F st') i) dat F) :
    ∀ (l : List Nat) (st' : τ'), SimE Df J Z zP (dat st') (l.foldlM body' st') (l.foldlM body (F st')) dat F
  | [], st' => SimE.ret rfl rfl
  | i :: l, st' => by
    rw [List.foldlM_cons, List.foldlM_cons]
    exact SimE.bind (h st' i) fun st2 => SimE.fold h l st2

theorem SimE.traverse {body' : τ' → Nat → R τ'} {body : τ → Nat → EM σ τ}
    {dat : τ' → List (Option (Nat × ω))} {F : τ' → τ}
    (h : ∀ st' i, SimE Df J Z zP (dat st') (body' st' i) (body (F st') i) dat F) (st' : τ') (m : Mask) :
    SimE Df J Z zP (dat st') (traverseM body' st' m) (traverseE body (F st') m) dat F := by
  rw [traverseM_eq, traverseE_eq]
  exact SimE.fold h _ _

/-- `I'` is an oracle for `I`: its cursor is mapped by `g`, its values by `dec`. -/
structure Oracle (I' : Impl S C' (Nat × ω)) (I : EImpl S C σ α) (s : S) (g : C' → C)
    (dec : Nat × ω → Option α) (curU : Nat → EM σ α) (Df : List (Option (Nat × ω))) (J : Nat)
    (Z : Nat → σ) (zP : σ) : Prop where
  depth : I.base.D = I'.D
  exact_eq : I.base.exact = I'.exact
  new : ∀ c, I'.new s = .ok c → I.base.new s = .ok (g c)
  sel : ∀ c n i m c', I'.selectU c s n i = .ok (m, c') → I.base.selectU (g c) s n i = .ok (m, g c')
  dat : ∀ c i kv, I'.curDataU c s i = .ok kv → I.curDataU (g c) s i = curU kv.1
  good : ∀ j kv, Df[j + 1]? = some (some kv) → j < J →
    ∃ a, dec kv = some a ∧ curU kv.1 (Z j) = .ok (.returned a, Z (j + 1))
  bad : ∀ kv, Df[J + 1]? = some (some kv) → curU kv.1 (Z J) = .ok (.panicked, zP)

/-- The state of the construction seen through the oracle. -/
def mapSt (g : C' → C) (dec : Nat × ω → Option α) (st : MSt C' (Nat × ω)) : MSt C α :=
  ⟨st.heap, g st.cur, st.data.map (fun o => o.bind dec), st.keys⟩

variable {I' : Impl S C' (Nat × ω)} {I : EImpl S C σ α} {s : S} {g : C' → C} {dec : Nat × ω → Option α}
variable {curU : Nat → EM σ α}

theorem terminalBody_sim (O : Oracle I' I s g dec curU Df J Z zP) (a keyAcc : Nat) (st : MSt C' (Nat × ω))
    (i : Nat) : SimE Df J Z zP st.data (terminalBody I' s a keyAcc st i)
      (terminalBodyE I s a keyAcc (mapSt g dec st) i) (fun r : MSt C' (Nat × ω) => r.data) (mapSt g dec) := by
  intro r e
  unfold terminalBody at e
  obtain ⟨kv, e1, e⟩ := bind_inv e
  obtain ⟨key, e2, e⟩ := bind_inv e
  simp only [pushData] at e
  obtain ⟨h, e3, e⟩ := bind_inv e
  cases e
  refine ⟨List.prefix_append _ _, fun hd hf => ?_⟩
  have e1' := O.dat _ _ _ e1
  have hget : Df[st.data.length]? = some (some kv) := by
    obtain ⟨t, rfl⟩ := hf
    simp
  have hl : (st.data ++ [some kv]).length = st.data.length + 1 := by simp
  have hidx : st.data.length - 1 + 1 = st.data.length := by omega
  unfold terminalBodyE
  constructor
  · intro hj
    simp only [hl] at hj
    obtain ⟨v, hv, hc⟩ := O.good (st.data.length - 1) kv (by rw [hidx]; exact hget) (by omega)
    show ((I.curDataU (g st.cur) s i >>= _ : EM σ (MSt C α)) (Z (st.data.length - 1))) = _
    rw [e1']
    show ((curU kv.1 (Z (st.data.length - 1))) >>= _) = _
    rw [hc, hidx]
    simp only [bind_ok]
    rw [e2, EM.lift_ok, EM.pure_bind]
    simp only [pushData, mapSt, List.length_map]
    rw [e3, EM.lift_ok, EM.pure_bind]
    simp [pure, List.map_append, hv, hl]
  · intro hj hj2
    simp only [hl] at hj2
    have hJ : st.data.length - 1 = J := by omega
    have hc := O.bad kv (by rw [← hJ, hidx]; exact hget)
    show ((I.curDataU (g st.cur) s i >>= _ : EM σ (MSt C α)) (Z (st.data.length - 1))) = _
    rw [e1', hJ]
    show (curU kv.1 (Z J) >>= _) = _
    rw [hc]
    rfl

theorem makeTerminalNode_sim (O : Oracle I' I s g dec curU Df J Z zP) (st : MSt C' (Nat × ω)) (mask : Word)
    (cap keyAcc : Nat) : SimE Df J Z zP st.data (makeTerminalNode I' s st mask cap keyAcc)
      (makeTerminalNodeE I s (mapSt g dec st) mask cap keyAcc)
      (fun r : MSt C' (Nat × ω) × Nat => r.1.data) (fun r => (mapSt g dec r.1, r.2)) := by
  unfold makeTerminalNode makeTerminalNodeE
  simp only [rawNew, Heap.alloc]
  refine SimE.bind (m := traverseE _ (mapSt g dec ⟨_, st.cur, st.data, st.keys⟩) _)
    (SimE.traverse (dat := fun r : MSt C' (Nat × ω) => r.data) (F := mapSt g dec)
    (body' := terminalBody I' s st.heap.next keyAcc) (body := terminalBodyE I s st.heap.next keyAcc)
    (fun st i => terminalBody_sim O _ _ st i)
    (⟨_, st.cur, st.data, st.keys⟩ : MSt C' (Nat × ω)) [mask]) fun st => ?_
  refine SimE.lift fun h => ?_
  exact SimE.ret rfl rfl

theorem fromExact_sim (O : Oracle I' I s g dec curU Df J Z zP) : ∀ (left : Nat) (st : MSt C' (Nat × ω))
    (index keyAcc : Nat), SimE Df J Z zP st.data (fromExact I' s left st index keyAcc)
      (fromExactE I s left (mapSt g dec st) index keyAcc)
      (fun r : MSt C' (Nat × ω) × Nat => r.1.data) (fun r => (mapSt g dec r.1, r.2))
  | 0, st, index, keyAcc => by
    unfold fromExact fromExactE
    rw [O.exact_eq, O.depth]
    split
    · refine SimE.lift2 (fun mc => (mc.1, g mc.2)) (fun mc h => O.sel _ _ _ _ _ h) fun mc => ?_
      refine SimE.lift fun mask => SimE.lift fun cap => ?_
      exact makeTerminalNode_sim O ⟨st.heap, mc.2, st.data, st.keys⟩ mask cap keyAcc
    · exact SimE.err
  | left + 1, st, index, keyAcc => by
    unfold fromExact fromExactE
    rw [O.exact_eq, O.depth]
    split
    · refine SimE.lift2 (fun mc => (mc.1, g mc.2)) (fun mc h => O.sel _ _ _ _ _ h) fun mc => ?_
      refine SimE.lift fun mask => SimE.lift fun cap => ?_
      simp only [rawNew, Heap.alloc]
      refine SimE.bind (m := traverseE _ (mapSt g dec ⟨_, mc.2, st.data, st.keys⟩) _)
        (SimE.traverse (dat := fun r : MSt C' (Nat × ω) => r.data) (F := mapSt g dec) (fun st i => ?_)
        (⟨_, mc.2, st.data, st.keys⟩ : MSt C' (Nat × ω)) [mask]) fun st => ?_
      · unfold exactBody exactBodyE
        refine SimE.lift fun b => SimE.lift fun k => ?_
        refine SimE.bind (fromExact_sim O left st i k) fun p => ?_
        refine SimE.lift fun h => ?_
        exact SimE.ret rfl rfl
      · refine SimE.lift fun e => SimE.lift fun h => ?_
        exact SimE.ret rfl rfl
    · exact SimE.err

theorem fromSparse_sim (O : Oracle I' I s g dec curU Df J Z zP) : ∀ (left : Nat) (st : MSt C' (Nat × ω))
    (index keyAcc : Nat), SimE Df J Z zP st.data (fromSparse I' s left st index keyAcc)
      (fromSparseE I s left (mapSt g dec st) index keyAcc)
      (fun r : MSt C' (Nat × ω) × Option Nat => r.1.data) (fun r => (mapSt g dec r.1, r.2))
  | 0, st, index, keyAcc => by
    unfold fromSparse fromSparseE
    rw [O.depth]
    refine SimE.lift2 (fun mc => (mc.1, g mc.2)) (fun mc h => O.sel _ _ _ _ _ h) fun mc => ?_
    refine SimE.lift fun mask => SimE.lift fun cap => ?_
    refine SimE.bind (makeTerminalNode_sim O ⟨st.heap, mc.2, st.data, st.keys⟩ mask cap keyAcc) fun p => ?_
    exact SimE.ret rfl rfl
  | left + 1, st, index, keyAcc => by
    unfold fromSparse fromSparseE
    rw [O.depth]
    refine SimE.lift2 (fun mc => (mc.1, g mc.2)) (fun mc h => O.sel _ _ _ _ _ h) fun mc => ?_
    refine SimE.lift fun mask => ?_
    refine SimE.bind (SimE.traverse (dat := fun v : SSt C' (Nat × ω) => v.st.data)
      (F := fun v => (⟨mapSt g dec v.st, v.nodeMask, v.childs⟩ : SSt C α)) (fun v i => ?_)
      (⟨⟨st.heap, mc.2, st.data, st.keys⟩, 0, []⟩ : SSt C' (Nat × ω)) [mask]) fun v => ?_
    · unfold sparseBody sparseBodyE
      refine SimE.lift fun b => SimE.lift fun k => ?_
      refine SimE.bind (fromSparse_sim O left v.st i k) fun p => ?_
      obtain ⟨p1, p2⟩ := p
      cases p2 with
      | none => exact SimE.ret rfl rfl
      | some c =>
        simp only
        refine SimE.lift fun q => ?_
        split
        · exact SimE.ret rfl rfl
        · exact SimE.err
    · simp only
      split
      · exact SimE.ret rfl rfl
      · refine SimE.lift fun e => ?_
        exact SimE.ret rfl rfl

theorem fromRoot_sim (O : Oracle I' I s g dec curU Df J Z zP) (st : MSt C' (Nat × ω)) :
    SimE Df J Z zP st.data (fromRoot I' s st) (fromRootE I s (mapSt g dec st))
      (fun r : MSt C' (Nat × ω) × Nat => r.1.data) (fun r => (mapSt g dec r.1, r.2)) := by
  unfold fromRoot fromRootE
  rw [O.exact_eq, O.depth]
  split
  · exact fromExact_sim O _ _ _ _
  · refine SimE.bind (fromSparse_sim O _ _ _ _) fun p => ?_
    refine SimE.lift fun a => ?_
    exact SimE.ret rfl rfl

/-- The tree seen through the oracle. -/
def mapDT (dec : Nat × ω → Option α) (t : DT (Nat × ω)) : DT α :=
  ⟨t.heap, t.root, t.data.map (fun o => o.bind dec), t.keys⟩

theorem materialize_sim (O : Oracle I' I s g dec curU Df J Z zP) {t : DT (Nat × ω)}
    (e : materialize I' s = .ok t) (hf : t.data <+: Df) (glue : Bool) :
    (t.data.length ≤ J + 1 →
      materializeE glue I s (Z 0) = .ok (.returned (mapDT dec t), Z (t.data.length - 1))) ∧
    (J + 1 < t.data.length →
      materializeE glue I s (Z 0) = if glue then .error .ub else .ok (.panicked, zP)) := by
  unfold materialize at e
  obtain ⟨c, e1, e⟩ := bind_inv e
  obtain ⟨p, e2, e⟩ := bind_inv e
  cases e
  obtain ⟨-, h⟩ := fromRoot_sim O _ p e2
  obtain ⟨h1, h2⟩ := h (Nat.le_refl 1) hf
  unfold materializeE
  rw [O.new c e1]
  constructor
  · intro hj
    have := h1 hj
    simp only [mapSt, List.map_cons, List.map_nil, Option.bind_none] at this
    simp only [bind_ok]
    rw [show (Z 0) = Z (([none] : List (Option (Nat × ω))).length - 1) from rfl, this]
    rfl
  · intro hj
    have := h2 (by simp) hj
    simp only [mapSt, List.map_cons, List.map_nil, Option.bind_none] at this
    simp only [bind_ok]
    rw [show (Z 0) = Z (([none] : List (Option (Nat × ω))).length - 1) from rfl, this]
    cases glue <;> rfl

end
end Hibit.Dense
