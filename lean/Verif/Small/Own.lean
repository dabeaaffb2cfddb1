import Verif.Small.Lemmas
/-!
# `SmallBlock`: who owns the boxed array

small_block.rs with the box of a big block on a heap, `Clone` and `Drop`. `Small/Model` treats the boxed array as a
value; here it is a heap block that `Clone` must copy and `Drop` must free, exactly once.
-/
namespace Hibit.Small
open Hibit

/-! ## The model -/

/-- The boxes of a program; `next` is above all addresses ever returned, so that a stale pointer is detected. -/
structure BHeap where
  box : Nat → Option (List Nat)
  next : Nat

/-- `Box::new`. -/
def BHeap.new (h : BHeap) (l : List Nat) : BHeap × Nat :=
  (⟨Dense.upd h.box h.next (some l), h.next + 1⟩, h.next)

/-- Read through a box. -/
def BHeap.read (h : BHeap) (a : Nat) : R (List Nat) := unwrapU (h.box a)

/-- Write through a box. -/
def BHeap.write (h : BHeap) (a : Nat) (l : List Nat) : R BHeap := do
  let _ ← unwrapU (h.box a)
  return ⟨Dense.upd h.box a (some l), h.next⟩

/-- Drop a box. -/
def BHeap.free (h : BHeap) (a : Nat) : R BHeap := do
  let _ ← unwrapU (h.box a)
  return ⟨Dense.upd h.box a none, h.next⟩

/-- small_block.rs:10-22 `BigSmallArray`. -/
inductive StoreH where
  | big (a : Nat)
  | small (pops : List Nat) (cells : List (Option Nat))
deriving DecidableEq, Repr

/-- small_block.rs:99-107 `SmallBlock`. -/
structure SBH where
  mask : Mask
  store : StoreH
deriving DecidableEq, Repr

/-- small_block.rs:75-82 `is_big`, as `Store.isBig`. -/
def StoreH.isBig : StoreH → R Bool
  | .big _ => .ok true
  | .small pops _ => do
    let b ← getU pops 0
    return b != 0

/-- Access to the union field `big.1`. -/
def StoreH.asBig : StoreH → R Nat
  | .big a => .ok a
  | .small _ _ => .error .ub

/-- Access to the union field `small`. -/
def StoreH.asSmall : StoreH → R (List Nat × List (Option Nat))
  | .big _ => .error .ub
  | .small p c => .ok (p, c)

/-- small_block.rs:84-96 `Drop`. -/
def StoreH.drop (h : BHeap) (s : StoreH) : R BHeap := do
  let big ← s.isBig
  if big then
    let a ← s.asBig
    h.free a
  else return h

/-- small_block.rs:51-66 `Clone`: the array in a new box, or a bitwise copy of the inline array. -/
def StoreH.clone (h : BHeap) (s : StoreH) : R (BHeap × StoreH) := do
  let big ← s.isBig
  if big then
    let a ← s.asBig
    let l ← h.read a
    let p := h.new l
    return (p.1, .big p.2)
  else
    let pc ← s.asSmall
    return (h, .small pc.1 pc.2)

/-- small_block.rs:99 `#[derive(Clone)]`. -/
def SBH.clone (h : BHeap) (b : SBH) : R (BHeap × SBH) := do
  let p ← b.store.clone h
  return (p.1, ⟨b.mask, p.2⟩)

/-- The drop glue of `SmallBlock`. -/
def SBH.drop (h : BHeap) (b : SBH) : R BHeap := b.store.drop h

/-- small_block.rs:243-255 `empty()`. -/
def SBH.empty (N CAP : Nat) : SBH := ⟨zeroMask N, .small (List.replicate N 0) (List.replicate CAP none)⟩

/-- small_block.rs:200-235 `insert_unchecked`. Line 219 assigns `self.big_small`, which drops its old value. -/
def SBH.insertU (CAP : Nat) (h : BHeap) (b : SBH) (index value : Nat) : R (BHeap × SBH) := do
  let big ← b.store.isBig
  if big then
    let a ← b.store.asBig
    let l ← h.read a
    let l ← setU l index value
    let h ← h.write a l
    let m ← setBit true b.mask index
    return (h, ⟨m.2, .big a⟩)
  else
    let pc ← b.store.asSmall
    let len ← smallLen b.mask pc.1
    if len = CAP then
      let p := h.new (List.replicate (width b.mask.length) 0)
      let r ← traverseBits (fun st i => (moveBody pc.2 st i, false))
        (.ok (0, List.replicate (width b.mask.length) 0)) b.mask
      let q ← r.1
      let l ← setU q.2 index value
      let h ← p.1.write p.2 l
      let h ← b.store.drop h
      let m ← setBit true b.mask index
      return (h, ⟨m.2, .big p.2⟩)
    else
      let inner ← smallIndexU b.mask pc.1 index
      let cnt ← subUsize len inner
      let cells ← copyWithin pc.2 inner (inner + 1) cnt
      let cells ← setU cells inner (some value)
      let pops ← bumpPops true (b.mask.length - (index / 64 + 1)) (index / 64 + 1) pc.1
      let m ← setBit true b.mask index
      return (h, ⟨m.2, .small pops cells⟩)

/-- small_block.rs:302-315 `get_or_zero`. -/
def SBH.getOrZero (h : BHeap) (b : SBH) (index : Nat) : R Nat := do
  let big ← b.store.isBig
  if big then
    let a ← b.store.asBig
    let l ← h.read a
    getU l index
  else
    let pc ← b.store.asSmall
    let o ← smallIndexImpl true b.mask pc.1 index
    match o with
    | some k => do
      let c ← getU pc.2 k
      unwrapU c
    | none => return 0

/-- small_block.rs:318-329 `get_or_insert`. -/
def SBH.getOrInsert (CAP : Nat) (h : BHeap) (b : SBH) (index v : Nat) : R (Nat × Bool × BHeap × SBH) := do
  let cur ← b.getOrZero h index
  if cur = 0 then
    let p ← b.insertU CAP h index v
    return (v, true, p.1, p.2)
  else return (cur, false, h, b)

/-- small_block.rs:332-359 `remove_unchecked`. -/
def SBH.removeU (h : BHeap) (b : SBH) (index : Nat) : R (BHeap × SBH) := do
  let pm ← setBit false b.mask index
  if pm.1 then
    let big ← b.store.isBig
    if big then
      let a ← b.store.asBig
      let l ← h.read a
      let l ← setU l index 0
      let h ← h.write a l
      return (h, ⟨pm.2, .big a⟩)
    else
      let pc ← b.store.asSmall
      let inner ← smallIndexU pm.2 pc.1 index
      let len ← smallLen pm.2 pc.1
      let cnt ← subUsize len inner
      let cells ← copyWithin pc.2 (inner + 1) inner cnt
      let pops ← bumpPops false (pm.2.length - (index / 64 + 1)) (index / 64 + 1) pc.1
      return (h, ⟨pm.2, .small pops cells⟩)
  else .error .panic

/-- small_block.rs:362-372 `set_unchecked`. -/
def SBH.setU (h : BHeap) (b : SBH) (index item : Nat) : R (BHeap × SBH) := do
  let big ← b.store.isBig
  if big then
    let a ← b.store.asBig
    let l ← h.read a
    let l ← Hibit.setU l index item
    let h ← h.write a l
    return (h, ⟨b.mask, .big a⟩)
  else
    let pc ← b.store.asSmall
    let inner ← smallIndexU b.mask pc.1 index
    let cells ← Hibit.setU pc.2 inner (some item)
    return (h, ⟨b.mask, .small pc.1 cells⟩)

/-- `is_empty()` and the mask, as `SB.obs`. -/
def SBH.obs (b : SBH) (item : Nat) (ins : Bool) : Obs := ⟨item, ins, b.mask, isZero b.mask⟩

/-- One call on a block. -/
def SBH.step (CAP : Nat) (h : BHeap) (b : SBH) : Op → R (Obs × BHeap × SBH)
  | .get i => do
    let v ← b.getOrZero h i
    return (b.obs v false, h, b)
  | .getOrInsert i v => do
    let r ← b.getOrInsert CAP h i v
    return (r.2.2.2.obs r.1 r.2.1, r.2.2.1, r.2.2.2)
  | .remove i => do
    let p ← b.removeU h i
    return (p.2.obs 0 false, p.1, p.2)
  | .set i v => do
    let p ← b.setU h i v
    return (p.2.obs 0 false, p.1, p.2)

/-! ## Following the model with values -/

/-- The block on the heap holds the value. -/
inductive Corr (h : BHeap) : SBH → SB → Prop
  | big {m : Mask} {a : Nat} {l : List Nat} : h.box a = some l → Corr h ⟨m, .big a⟩ ⟨m, .big l⟩
  | small {m : Mask} {p : List Nat} {c : List (Option Nat)} : Corr h ⟨m, .small p c⟩ ⟨m, .small p c⟩

/-- The box a block owns. -/
def SBH.owns (b : SBH) : Option Nat :=
  match b.store with
  | .big a => some a
  | .small _ _ => none

/-- Nothing is allocated above `next`. -/
def BHeap.Fresh (h : BHeap) : Prop := ∀ a, h.next ≤ a → h.box a = none

/-- What a call on the block `b` may do to the heap. -/
structure Frame (h : BHeap) (b : SBH) (h' : BHeap) (b' : SBH) : Prop where
  other : ∀ a, a < h.next → b.owns ≠ some a → h'.box a = h.box a
  owns : b'.owns = b.owns ∨ (b.owns = none ∧ b'.owns = some h.next)
  cover : ∀ a l, h'.box a = some l → (∃ l', h.box a = some l') ∨ b'.owns = some a
  fresh : h.Fresh → h'.Fresh
  le : h.next ≤ h'.next

theorem Frame.refl (h : BHeap) (b b' : SBH) (e : b'.owns = b.owns) : Frame h b h b' :=
  ⟨fun _ _ _ => rfl, .inl e, fun a l e => .inl ⟨l, e⟩, id, Nat.le_refl _⟩

theorem Frame.write {h : BHeap} {m m' : Mask} {a : Nat} {l l' : List Nat} (e : h.box a = some l) :
    Frame h ⟨m, .big a⟩ ⟨Dense.upd h.box a (some l'), h.next⟩ ⟨m', .big a⟩ := by
  refine ⟨?_, .inl rfl, ?_, ?_, Nat.le_refl _⟩
  · intro a' _ hne
    have : a' ≠ a := fun e => hne (by subst e; rfl)
    simp [Dense.upd, this]
  · intro a' l2 h2
    simp only [Dense.upd] at h2
    split at h2
    · rename_i e2
      exact .inl ⟨l, e2 ▸ e⟩
    · exact .inl ⟨l2, h2⟩
  · intro hf a' ha
    have : a' ≠ a := fun e2 => by
      have := hf a' ha
      rw [e2, e] at this
      cases this
    simp only [Dense.upd, this, if_false]
    exact hf a' ha

section
variable {CAP : Nat} {h : BHeap} {b : SBH} {v : SB}

theorem Corr.isBig (c : Corr h b v) : b.store.isBig = v.store.isBig := by
  cases c <;> rfl

theorem Corr.getOrZero (c : Corr h b v) (i : Nat) : b.getOrZero h i = v.getOrZero i := by
  cases c with
  | big e =>
    simp only [SBH.getOrZero, SB.getOrZero, StoreH.isBig, Store.isBig, StoreH.asBig, Store.asBig, bind_ok,
      BHeap.read, e, unwrapU, if_true]
  | small => rfl

theorem write_ok {h : BHeap} {a : Nat} {l : List Nat} (e : h.box a = some l) (l' : List Nat) :
    h.write a l' = .ok ⟨Dense.upd h.box a (some l'), h.next⟩ := by
  simp [BHeap.write, e, unwrapU]

theorem upd_same' (f : Nat → Option (List Nat)) (a : Nat) (l : Option (List Nat)) : Dense.upd f a l a = l := by
  simp [Dense.upd]

theorem Corr.insertU (c : Corr h b v) {i x : Nat} {v' : SB} (e : v.insertU CAP i x = .ok v') :
    ∃ h' b', b.insertU CAP h i x = .ok (h', b') ∧ Corr h' b' v' ∧ Frame h b h' b' := by
  cases c with
  | @big m a l el =>
    unfold SB.insertU at e
    simp only [Store.isBig, bind_ok, if_true, Store.asBig] at e
    obtain ⟨l', e1, e⟩ := bind_inv e
    obtain ⟨mm, e2, e⟩ := bind_inv e
    cases e
    refine ⟨⟨Dense.upd h.box a (some l'), h.next⟩, ⟨mm.2, .big a⟩, ?_, .big (upd_same' _ _ _), Frame.write el⟩
    unfold SBH.insertU
    simp only [StoreH.isBig, bind_ok, if_true, StoreH.asBig, BHeap.read, el, unwrapU, e1, write_ok el, e2]
    rfl
  | @small m p cells =>
    unfold SB.insertU at e
    unfold SBH.insertU
    obtain ⟨big, e0, e⟩ := bind_inv e
    have e0' : (StoreH.small p cells).isBig = .ok big := e0
    rw [e0']
    simp only [bind_ok]
    cases big with
    | true => simp [Store.asBig] at e
    | false =>
      simp only [Bool.false_eq_true, if_false, Store.asSmall, StoreH.asSmall, bind_ok] at e ⊢
      obtain ⟨len, e1, e⟩ := bind_inv e
      rw [e1]
      simp only [bind_ok]
      split at e
      · rename_i hl
        rw [if_pos hl]
        obtain ⟨r, e2, e⟩ := bind_inv e
        obtain ⟨q, e3, e⟩ := bind_inv e
        obtain ⟨l, e4, e⟩ := bind_inv e
        obtain ⟨mm, e5, e⟩ := bind_inv e
        cases e
        have hw : (BHeap.mk (Dense.upd h.box h.next (some (List.replicate (width m.length) 0))) (h.next + 1)).box
            h.next = some (List.replicate (width m.length) 0) := upd_same' _ _ _
        refine ⟨⟨Dense.upd (Dense.upd h.box h.next (some (List.replicate (width m.length) 0))) h.next (some l),
            h.next + 1⟩, ⟨mm.2, .big h.next⟩, ?_, .big (upd_same' _ _ _), ?_⟩
        · rw [e2]
          simp only [bind_ok, BHeap.new, e3, e4]
          rw [write_ok hw]
          simp only [bind_ok, StoreH.drop, e0', Bool.false_eq_true, if_false, e5]
          rfl
        · refine ⟨?_, .inr ⟨rfl, rfl⟩, ?_, ?_, Nat.le_succ _⟩
          · intro a ha _
            have : a ≠ h.next := by omega
            simp [Dense.upd, this]
          · intro a l2 h2
            simp only [Dense.upd] at h2
            split at h2
            · rename_i e
              right
              simp [SBH.owns, e]
            · exact .inl ⟨l2, h2⟩
          · intro hf a ha
            have ha : h.next + 1 ≤ a := ha
            have : a ≠ h.next := by omega
            simp only [Dense.upd, this, if_false]
            exact hf a (by omega)
      · rename_i hl
        rw [if_neg hl]
        obtain ⟨inner, e2, e⟩ := bind_inv e
        obtain ⟨cnt, e3, e⟩ := bind_inv e
        obtain ⟨c1, e4, e⟩ := bind_inv e
        obtain ⟨c2, e5, e⟩ := bind_inv e
        obtain ⟨p2, e6, e⟩ := bind_inv e
        obtain ⟨mm, e7, e⟩ := bind_inv e
        cases e
        refine ⟨h, ⟨mm.2, .small p2 c2⟩, ?_, .small, Frame.refl _ _ _ rfl⟩
        simp only [e2, e3, e4, e5, e6, e7, bind_ok]
        rfl

theorem Corr.removeU (c : Corr h b v) {i : Nat} {v' : SB} (e : v.removeU i = .ok v') :
    ∃ h' b', b.removeU h i = .ok (h', b') ∧ Corr h' b' v' ∧ Frame h b h' b' := by
  cases c with
  | @big m a l el =>
    unfold SB.removeU at e
    obtain ⟨pm, e1, e⟩ := bind_inv e
    obtain ⟨prev, mm⟩ := pm
    simp only at e
    cases prev with
    | false => simp at e
    | true =>
      simp only [if_true, Store.isBig, Store.asBig, bind_ok] at e
      obtain ⟨l', e2, e⟩ := bind_inv e
      cases e
      refine ⟨⟨Dense.upd h.box a (some l'), h.next⟩, ⟨mm, .big a⟩, ?_, .big (upd_same' _ _ _), Frame.write el⟩
      unfold SBH.removeU
      simp only [e1, bind_ok, if_true, StoreH.isBig, StoreH.asBig, BHeap.read, el, unwrapU, e2, write_ok el]
      rfl
  | @small m p cells =>
    unfold SB.removeU at e
    unfold SBH.removeU
    obtain ⟨pm, e1, e⟩ := bind_inv e
    obtain ⟨prev, mm⟩ := pm
    simp only at e
    rw [e1]
    simp only [bind_ok]
    cases prev with
    | false => simp at e
    | true =>
      simp only [if_true] at e ⊢
      obtain ⟨big, e0, e⟩ := bind_inv e
      have e0' : (StoreH.small p cells).isBig = .ok big := e0
      rw [e0']
      simp only [bind_ok]
      cases big with
      | true => simp [Store.asBig] at e
      | false =>
        simp only [Bool.false_eq_true, if_false, Store.asSmall, StoreH.asSmall, bind_ok] at e ⊢
        obtain ⟨inner, e2, e⟩ := bind_inv e
        obtain ⟨len, e3, e⟩ := bind_inv e
        obtain ⟨cnt, e4, e⟩ := bind_inv e
        obtain ⟨c1, e5, e⟩ := bind_inv e
        obtain ⟨p2, e6, e⟩ := bind_inv e
        cases e
        refine ⟨h, ⟨mm, .small p2 c1⟩, ?_, .small, Frame.refl _ _ _ rfl⟩
        simp only [e2, e3, e4, e5, e6, bind_ok]
        rfl

theorem Corr.setU (c : Corr h b v) {i x : Nat} {v' : SB} (e : v.setU i x = .ok v') :
    ∃ h' b', b.setU h i x = .ok (h', b') ∧ Corr h' b' v' ∧ Frame h b h' b' := by
  cases c with
  | @big m a l el =>
    unfold SB.setU at e
    simp only [Store.isBig, bind_ok, if_true, Store.asBig] at e
    obtain ⟨l', e1, e⟩ := bind_inv e
    cases e
    refine ⟨⟨Dense.upd h.box a (some l'), h.next⟩, ⟨m, .big a⟩, ?_, .big (upd_same' _ _ _), Frame.write el⟩
    unfold SBH.setU
    simp only [StoreH.isBig, bind_ok, if_true, StoreH.asBig, BHeap.read, el, unwrapU, e1, write_ok el]
    rfl
  | @small m p cells =>
    unfold SB.setU at e
    unfold SBH.setU
    obtain ⟨big, e0, e⟩ := bind_inv e
    have e0' : (StoreH.small p cells).isBig = .ok big := e0
    rw [e0']
    simp only [bind_ok]
    cases big with
    | true => simp [Store.asBig] at e
    | false =>
      simp only [Bool.false_eq_true, if_false, Store.asSmall, StoreH.asSmall, bind_ok] at e ⊢
      obtain ⟨inner, e2, e⟩ := bind_inv e
      obtain ⟨c1, e3, e⟩ := bind_inv e
      cases e
      refine ⟨h, ⟨m, .small p c1⟩, ?_, .small, Frame.refl _ _ _ rfl⟩
      simp only [e2, e3, bind_ok]
      rfl

theorem Corr.mask (c : Corr h b v) : b.mask = v.mask := by cases c <;> rfl

theorem Corr.obs (c : Corr h b v) (x : Nat) (ins : Bool) : b.obs x ins = v.obs x ins := by
  unfold SBH.obs SB.obs SB.isEmpty
  rw [c.mask]

theorem Corr.step (c : Corr h b v) {op : Op} {o : Obs} {v' : SB} (e : v.step CAP op = .ok (o, v')) :
    ∃ h' b', b.step CAP h op = .ok (o, h', b') ∧ Corr h' b' v' ∧ Frame h b h' b' := by
  cases op with
  | get i =>
    unfold SB.step at e
    obtain ⟨x, e1, e⟩ := bind_inv e
    cases e
    refine ⟨h, b, ?_, c, Frame.refl _ _ _ rfl⟩
    simp only [SBH.step]
    rw [c.getOrZero, e1]
    simp only [bind_ok, c.obs]
    rfl
  | getOrInsert i x =>
    unfold SB.step SB.getOrInsert at e
    obtain ⟨r, e1, e⟩ := bind_inv e
    obtain ⟨cur, e2, e1⟩ := bind_inv e1
    simp only [SBH.step, SBH.getOrInsert]
    rw [c.getOrZero, e2]
    simp only [bind_ok]
    split at e1
    · rename_i h0
      obtain ⟨v1, e3, e1⟩ := bind_inv e1
      cases e1
      cases e
      obtain ⟨h', b', e4, c', f⟩ := c.insertU e3
      refine ⟨h', b', ?_, c', f⟩
      rw [if_pos h0, e4]
      simp only [bind_ok, pure_eq_ok, c'.obs]
    · rename_i h0
      cases e1
      cases e
      refine ⟨h, b, ?_, c, Frame.refl _ _ _ rfl⟩
      rw [if_neg h0]
      simp only [bind_ok, pure_eq_ok, c.obs]
  | remove i =>
    unfold SB.step at e
    obtain ⟨v1, e1, e⟩ := bind_inv e
    cases e
    obtain ⟨h', b', e4, c', f⟩ := c.removeU e1
    refine ⟨h', b', ?_, c', f⟩
    simp only [SBH.step]
    rw [e4]
    simp only [bind_ok, pure_eq_ok, c'.obs]
  | set i x =>
    unfold SB.step at e
    obtain ⟨v1, e1, e⟩ := bind_inv e
    cases e
    obtain ⟨h', b', e4, c', f⟩ := c.setU e1
    refine ⟨h', b', ?_, c', f⟩
    simp only [SBH.step]
    rw [e4]
    simp only [bind_ok, pure_eq_ok, c'.obs]

/-- Another block's box is untouched. -/
theorem Corr.frame {b2 b' : SBH} {h' : BHeap} (f : Frame h b2 h' b') (hf : h.Fresh) (c : Corr h b v)
    (hne : ∀ a, b.owns = some a → b2.owns ≠ some a) : Corr h' b v := by
  cases c with
  | @big m a l e =>
    refine .big ?_
    rw [f.other a ?_ (hne a rfl)]
    · exact e
    · apply Classical.byContradiction
      intro hn
      rw [hf a (by omega)] at e
      cases e
  | small => exact .small

end
end Hibit.Small
