import Verif.Bits.Lemmas
/-!
# Bit queues over any primitive

`src/bit_queue.rs` and the part of `src/bit_utils.rs` below it are generic in the primitive
`P ∈ {u8, u16, u32, u64, usize}` (utils/primitive.rs:84-88) and in the array length `N`.
`Bits/Model.lean` has the instance `P = u64` used by the trees; here is the generic code.
`s` is `size_of::<P>()`, a value of `P` is a `BitVec (s * 8)`.
-/
namespace Hibit.GBits
open Hibit

variable {s : Nat}

/-- `P::trailing_zeros` (primitive.rs:66-69): the number of bits when the value is zero. -/
def tz (w : BitVec (s * 8)) : Nat :=
  ((List.range (s * 8)).find? (fun i => w.getLsbD i)).getD (s * 8)

/-- `P << usize`: debug builds panic when the amount reaches the width. -/
def shlP (p : BitVec (s * 8)) (n : Nat) : R (BitVec (s * 8)) :=
  if n < s * 8 then .ok (p <<< n) else .error .panic

/-- bit_utils.rs:158-166: `t = element & element.wrapping_neg(); element ^= t`. -/
def clearLowest (w : BitVec (s * 8)) : BitVec (s * 8) := w ^^^ (w &&& -w)

/-- bit_utils.rs:153-168 `OneBitsIter::next`. -/
def oneNext (w : BitVec (s * 8)) : Option Nat × BitVec (s * 8) :=
  if w == 0 then (none, w) else (some (tz w), clearLowest w)

/-- bit_utils.rs:171-190 `OneBitsIter::fold`; the `while` loop with fuel. -/
def oneFoldLoop {β : Type} (f : β → Nat → β) : Nat → β → BitVec (s * 8) → R β
  | 0, _, _ => .error .fuel
  | fuel + 1, b, w => if w == 0 then .ok b else oneFoldLoop f fuel (f b (tz w)) (clearLowest w)

/-- bit_utils.rs:171-190 `OneBitsIter::fold` (at most one round per bit: `oneFold_eq`). -/
def oneFold {β : Type} (f : β → Nat → β) (b : β) (w : BitVec (s * 8)) : R β :=
  oneFoldLoop f (s * 8 + 1) b w

/-- bit_utils.rs:108-131 `traverse_one_bits`; `f` is a stateful closure answering `true` for
`Break`. The `while` loop with fuel. -/
def travLoop {σ : Type} (f : σ → Nat → σ × Bool) : Nat → σ → BitVec (s * 8) → R (σ × Bool)
  | 0, _, _ => .error .fuel
  | fuel + 1, st, w =>
    if w == 0 then .ok (st, false)
    else
      let (st', brk) := f st (tz w)
      if brk then .ok (st', true) else travLoop f fuel st' (clearLowest w)

/-- bit_utils.rs:108-131 `traverse_one_bits`. -/
def travOne {σ : Type} (f : σ → Nat → σ × Bool) (st : σ) (w : BitVec (s * 8)) : R (σ × Bool) :=
  travLoop f (s * 8 + 1) st w

/-- bit_utils.rs:85-105 `traverse_array_one_bits` from array position `i`. -/
def travFrom {σ : Type} (f : σ → Nat → σ × Bool) :
    Nat → σ → List (BitVec (s * 8)) → R (σ × Bool)
  | _, st, [] => .ok (st, false)
  | i, st, w :: ws => do
    let (st', brk) ← travOne (fun st r => f st (i * s * 8 + r)) st w
    if brk then return (st', true) else travFrom f (i + 1) st' ws

/-- bit_queue.rs:98-101 `PrimitiveBitQueue` and 169-174 `ArrayBitQueue`, 63-64 `EmptyBitQueue`. -/
inductive Queue (s : Nat) where
  | none
  | prim (w : BitVec (s * 8))
  | arr (iters : List (BitVec (s * 8))) (idx : Nat)
deriving DecidableEq

/-- bit_queue.rs:10-18 `saturating_shl`. -/
def satShl (p : BitVec (s * 8)) (n : Nat) : R (BitVec (s * 8)) :=
  if n ≥ s * 8 then .ok 0 else shlP p n

/-- bit_queue.rs:310-326 `ArrayBitQueue::next`; the `loop` with fuel. -/
def arrNext : Nat → List (BitVec (s * 8)) → Nat → R (Option Nat × Queue s)
  | 0, _, _ => .error .fuel
  | fuel + 1, iters, idx => do
    let w ← getP iters 0
    match oneNext w with
    | (some index, w') => return (some (idx * s * 8 + index), .arr (iters.set 0 w') idx)
    | (.none, w') =>
      let its := iters.set 0 w'
      if idx = iters.length - 1 then return (.none, .arr its idx)
      else
        let nxt ← getU its (idx + 1)
        arrNext fuel (its.set 0 nxt) (idx + 1)

/-- `Iterator::next`: bit_queue.rs:70-72, 162-164, 310-326. -/
def Queue.next : Queue s → R (Option Nat × Queue s)
  | .none => .ok (Option.none, .none)
  | .prim w => let (o, w') := oneNext w; .ok (o, .prim w')
  | .arr iters idx => arrNext (iters.length + 1) iters idx

/-- `BitQueue::trim_to`: bit_queue.rs:84, 128-134, 211-265. -/
def Queue.trimTo : Queue s → Nat → R (Queue s)
  | .none, _ => .ok .none
  | .prim w, n => do
    let mask ← satShl (BitVec.allOnes (s * 8)) n
    return .prim (w &&& mask)
  | .arr iters idx, n => do
    let N := iters.length
    let elementIndex := n / (s * 8)
    if elementIndex ≥ N then return .arr (iters.set 0 0) (N - 1)
    else if elementIndex < idx then return .arr iters idx
    else
      let (its, ix) ← if elementIndex ≠ idx then do
          let w ← getU iters elementIndex
          pure (iters.set 0 w, elementIndex)
        else pure (iters, idx)
      let bitIndex := n % (s * 8)
      let active ← getP its 0
      let msk ← shlP (BitVec.allOnes (s * 8)) bitIndex
      return .arr (its.set 0 (active &&& msk)) ix

/-- `BitQueue::current`: bit_queue.rs:86-88, 137-139, 268-271. -/
def Queue.current : Queue s → R Nat
  | .none => .ok 0
  | .prim w => .ok (tz w)
  | .arr iters idx => do
    let w ← getP iters 0
    return idx * s * 8 + tz w

/-- `BitQueue::traverse`: bit_queue.rs:90-95, 142-147, 274-294. -/
def Queue.traverse {σ : Type} (f : σ → Nat → σ × Bool) (st : σ) : Queue s → R (σ × Bool)
  | .none => .ok (st, false)
  | .prim w => travOne f st w
  | .arr iters idx => do
    let w ← getP iters 0
    let its ← setU iters idx w
    let slice := (its.drop idx).take (iters.length - idx)
    let start := idx * s * 8
    travFrom (fun st i => f st (start + i)) 0 st slice

/-- bit_queue.rs:327-336 `ArrayBitQueue::for_each`: `traverse` with a callback that never breaks.
(`PrimitiveBitQueue` and `EmptyBitQueue` have the default `for_each`, a loop over `next`.) -/
def Queue.forEach {σ : Type} (f : σ → Nat → σ) (st : σ) (q : Queue s) : R σ := do
  let (st', _) ← q.traverse (fun st i => (f st i, false)) st
  return st'

/-- bit_queue.rs:105-110, 181-191 `new`. -/
def Queue.newPrim (w : BitVec (s * 8)) : Queue s := .prim w
/-- bit_queue.rs:181-191 `ArrayBitQueue::new`. -/
def Queue.newArr (ws : List (BitVec (s * 8))) : Queue s := .arr ws 0
/-- bit_queue.rs:198-204 `ArrayBitQueue::empty`. -/
def Queue.emptyArr (N : Nat) : Queue s := .arr (List.replicate N 0) (N - 1)
/-- bit_queue.rs:206-209 `ArrayBitQueue::filled`. -/
def Queue.filledArr (N : Nat) : Queue s := .newArr (List.replicate N (BitVec.allOnes (s * 8)))

/-! ## Specification -/

/-- The positions of the one bits of an array of words, ascending; word `j` holds the positions
`s*8*j ..< s*8*(j+1)`. -/
def ones (ws : List (BitVec (s * 8))) : List Nat :=
  (List.range (s * 8 * ws.length)).filter fun i =>
    (ws.getD (i / (s * 8)) 0).getLsbD (i % (s * 8))

/-! ## Words -/

/-- One bits of a word, ascending. -/
def wones (w : BitVec (s * 8)) : List Nat := (List.range (s * 8)).filter fun i => w.getLsbD i

theorem tz_spec {w : BitVec (s * 8)} (h : w ≠ 0) :
    tz w < s * 8 ∧ w.getLsbD (tz w) = true ∧ ∀ j < tz w, w.getLsbD j = false := by
  unfold tz
  cases hf : (List.range (s * 8)).find? (fun i => w.getLsbD i) with
  | none =>
    exfalso; apply h
    apply BitVec.eq_of_getLsbD_eq
    intro i hi
    rw [List.find?_eq_none] at hf
    have := hf i (by simpa using hi)
    simpa using this
  | some t =>
    simp only [Option.getD_some]
    rw [List.find?_range_eq_some] at hf
    refine ⟨by simpa using hf.2.1, hf.1, ?_⟩
    intro j hj
    simpa using hf.2.2 j hj

theorem tz_zero : tz (0 : BitVec (s * 8)) = s * 8 := by
  unfold tz
  have : (List.range (s * 8)).find? (fun i => (0 : BitVec (s * 8)).getLsbD i) = none := by
    rw [List.find?_eq_none]; intro x _; simp
  rw [this]; rfl

theorem clearLowest_bit {w : BitVec (s * 8)} (h : w ≠ 0) (i : Nat) :
    (clearLowest w).getLsbD i = (w.getLsbD i && decide (i ≠ tz w)) := by
  obtain ⟨h1, h2, h3⟩ := tz_spec h
  unfold clearLowest
  rw [BitVec.getLsbD_xor, BitVec.getLsbD_and, BitVec.getLsbD_neg]
  by_cases hi : ¬ i < s * 8
  · have : w.getLsbD i = false := BitVec.getLsbD_of_ge _ _ (by omega)
    simp [this]
  have hi : i < s * 8 := by omega
  by_cases he : i = tz w
  · have : ¬ ∃ j < i, w.getLsbD j = true := by
      rintro ⟨j, hj, hj2⟩
      rw [h3 j (by omega)] at hj2; cases hj2
    rw [decide_eq_false this, he, h2]; simp
  · by_cases hb : w.getLsbD i = true
    · have hlt : tz w < i := by
        rcases Nat.lt_trichotomy i (tz w) with hl | hl | hl
        · rw [h3 i hl] at hb; cases hb
        · exact absurd hl he
        · exact hl
      have : ∃ j < i, w.getLsbD j = true := ⟨tz w, hlt, h2⟩
      rw [decide_eq_true this, hb]; simp [hi, he]
    · simp at hb; simp [hb]

theorem wones_cons {w : BitVec (s * 8)} (h : w ≠ 0) : wones w = tz w :: wones (clearLowest w) := by
  obtain ⟨h1, h2, h3⟩ := tz_spec h
  exact filter_range_cons _ _ h1 h2 h3 (fun j _ => clearLowest_bit h j)

@[simp] theorem wones_zero : wones (0 : BitVec (s * 8)) = [] := by
  unfold wones
  rw [List.filter_eq_nil_iff]; intro a _; simp

@[simp] theorem wones_zero' : wones (0#(s * 8)) = [] := wones_zero

theorem wones_length_le (w : BitVec (s * 8)) : (wones w).length ≤ s * 8 := by
  have := List.length_filter_le (fun i => w.getLsbD i) (List.range (s * 8))
  simpa [wones] using this

theorem mem_wones {w : BitVec (s * 8)} {i : Nat} : i ∈ wones w ↔ w.getLsbD i = true := by
  simp only [wones, List.mem_filter, List.mem_range]
  constructor
  · exact fun h => h.2
  · intro h; exact ⟨BitVec.lt_of_getLsbD h, h⟩

theorem oneNext_spec (w : BitVec (s * 8)) :
    (oneNext w).1 = (wones w).head? ∧ wones (oneNext w).2 = (wones w).tail := by
  unfold oneNext
  by_cases h : w = 0
  · subst h; simp
  · have h' : (w == 0) = false := by simpa using h
    rw [h', wones_cons h]; simp

theorem oneFoldLoop_eq {β : Type} (f : β → Nat → β) :
    ∀ (fuel : Nat) (b : β) (w : BitVec (s * 8)), (wones w).length < fuel →
      oneFoldLoop f fuel b w = .ok ((wones w).foldl f b) := by
  intro fuel
  induction fuel with
  | zero => intro b w h; omega
  | succ n ih =>
    intro b w h
    unfold oneFoldLoop
    by_cases h0 : w = 0
    · subst h0; simp
    · have h' : (w == 0) = false := by simpa using h0
      rw [wones_cons h0] at h ⊢
      simp only [List.length_cons] at h
      rw [h']
      simp only [Bool.false_eq_true, if_false, List.foldl_cons]
      exact ih _ _ (by omega)

/-- `fold` folds over the one bits, ascending. -/
theorem oneFold_eq {β : Type} (f : β → Nat → β) (b : β) (w : BitVec (s * 8)) :
    oneFold f b w = .ok ((wones w).foldl f b) :=
  oneFoldLoop_eq f _ b w (by have := wones_length_le w; omega)

theorem travLoop_eq {σ : Type} (f : σ → Nat → σ × Bool) :
    ∀ (fuel : Nat) (st : σ) (w : BitVec (s * 8)), (wones w).length < fuel →
      travLoop f fuel st w = .ok (feed f st (wones w)) := by
  intro fuel
  induction fuel with
  | zero => intro s w h; omega
  | succ n ih =>
    intro st w h
    unfold travLoop
    by_cases h0 : w = 0
    · subst h0; simp [feed]
    · have h' : (w == 0) = false := by simpa using h0
      rw [wones_cons h0] at h ⊢
      simp only [List.length_cons] at h
      rw [h']
      simp only [Bool.false_eq_true, if_false, feed]
      split
      · rfl
      · rw [ih _ _ (by omega)]

theorem travOne_eq {σ : Type} (f : σ → Nat → σ × Bool) (st : σ) (w : BitVec (s * 8)) :
    travOne f st w = .ok (feed f st (wones w)) :=
  travLoop_eq f _ st w (by have := wones_length_le w; omega)

/-! ## Arrays -/

/-- One bits of a list of words whose first word has position `i`. -/
def onesFrom (i : Nat) : List (BitVec (s * 8)) → List Nat
  | [] => []
  | w :: ws => (wones w).map (fun r => s * 8 * i + r) ++ onesFrom (i + 1) ws

theorem mul_comm3 (i s : Nat) : i * s * 8 = s * 8 * i := by
  rw [Nat.mul_assoc, Nat.mul_comm]

theorem travFrom_eq {σ : Type} (f : σ → Nat → σ × Bool) (ws : List (BitVec (s * 8))) :
    ∀ (i : Nat) (st : σ), travFrom f i st ws = .ok (feed f st (onesFrom i ws)) := by
  induction ws with
  | nil => intro i st; rfl
  | cons w ws ih =>
    intro i st
    simp only [travFrom, travOne_eq, bind_ok, onesFrom, feed_append, ih]
    rw [feed_map f (fun r => i * s * 8 + r), mul_comm3]
    split <;> rfl

theorem onesFrom_shift (ws : List (BitVec (s * 8))) : ∀ (i j : Nat),
    onesFrom (i + j) ws = (onesFrom j ws).map (fun r => s * 8 * i + r) := by
  induction ws with
  | nil => intro i j; rfl
  | cons w ws ih =>
    intro i j
    simp only [onesFrom, List.map_append, List.map_map]
    congr 1
    · apply List.map_congr_left; intro a _
      simp only [Function.comp, Nat.mul_add]; omega
    · have := ih i (j + 1); rwa [← Nat.add_assoc] at this

theorem ones_cons (hs : 0 < s) (w : BitVec (s * 8)) (ws : List (BitVec (s * 8))) :
    ones (w :: ws) = wones w ++ (ones ws).map (fun r => s * 8 + r) := by
  unfold ones wones
  have : s * 8 * (w :: ws).length = s * 8 + s * 8 * ws.length := by
    rw [List.length_cons, Nat.mul_add]; omega
  rw [this, List.range_add, List.filter_append, List.filter_map]
  congr 1
  · apply List.filter_congr
    intro x hx
    have hx : x < s * 8 := by simpa using hx
    rw [Nat.div_eq_of_lt hx, Nat.mod_eq_of_lt hx]; rfl
  · congr 1
    apply List.filter_congr
    intro x _
    simp only [Function.comp]
    rw [Nat.add_div_left x (by omega), Nat.add_mod_left]; rfl

theorem onesFrom_zero (hs : 0 < s) (ws : List (BitVec (s * 8))) : onesFrom 0 ws = ones ws := by
  induction ws with
  | nil => rfl
  | cons w ws ih =>
    rw [ones_cons hs, onesFrom, ← ih]
    congr 1
    · simp
    · have := onesFrom_shift ws 1 0; simpa using this

theorem onesFrom_ge (ws : List (BitVec (s * 8))) : ∀ (i : Nat), ∀ x ∈ onesFrom i ws,
    s * 8 * i ≤ x := by
  induction ws with
  | nil => intro i x hx; simp [onesFrom] at hx
  | cons w ws ih =>
    intro i x hx
    simp only [onesFrom, List.mem_append, List.mem_map] at hx
    rcases hx with ⟨r, _, rfl⟩ | hx
    · omega
    · have := ih _ x hx; rw [Nat.mul_add] at this; omega

theorem onesFrom_lt (ws : List (BitVec (s * 8))) : ∀ (i : Nat), ∀ x ∈ onesFrom i ws,
    x < s * 8 * (i + ws.length) := by
  induction ws with
  | nil => intro i x hx; simp [onesFrom] at hx
  | cons w ws ih =>
    intro i x hx
    simp only [onesFrom, List.mem_append, List.mem_map] at hx
    rcases hx with ⟨r, hr, rfl⟩ | hx
    · have := BitVec.lt_of_getLsbD (mem_wones.1 hr)
      rw [List.length_cons, ← Nat.add_assoc, Nat.mul_add, Nat.mul_add]; omega
    · have := ih _ x hx
      rw [List.length_cons]
      rwa [show i + 1 + ws.length = i + (ws.length + 1) by omega] at this

/-- Well-formed queue state over `N` words. -/
def Queue.Wf (N : Nat) : Queue s → Prop
  | .none => N = 0
  | .prim _ => N = 1
  | .arr iters idx => iters.length = N ∧ idx < N

/-- Remaining bits of a queue. -/
def Queue.rem : Queue s → List Nat
  | .none => []
  | .prim w => wones w
  | .arr iters idx => onesFrom idx ((iters.headD 0) :: iters.drop (idx + 1))

theorem arrNext_spec : ∀ (fuel : Nat) (iters : List (BitVec (s * 8))) (idx N : Nat),
    iters.length = N → idx < N → N - idx < fuel →
    ∃ q', arrNext fuel iters idx = .ok ((Queue.arr iters idx).rem.head?, q') ∧
      q'.Wf N ∧ q'.rem = (Queue.arr iters idx).rem.tail := by
  intro fuel
  induction fuel with
  | zero => intro q i N _ _ h; omega
  | succ fuel ih =>
    intro iters idx N hlen hidx hf
    match iters, hlen with
    | [], hlen => simp at hlen; omega
    | w :: ws, hlen =>
      unfold arrNext
      simp only [getP, List.getElem?_cons_zero, bind_ok]
      by_cases hw : w = 0
      · subst hw
        have hn : oneNext (0 : BitVec (s * 8)) = (none, 0) := by simp [oneNext]
        simp only [hn, List.set_cons_zero]
        by_cases hlast : idx = N - 1
        · rw [if_pos (by rw [hlen]; exact hlast)]
          refine ⟨.arr (0 :: ws) idx, ?_, ⟨hlen, hidx⟩, ?_⟩
          · simp only [pure_eq_ok, Queue.rem, List.headD_cons, onesFrom, wones_zero,
              List.map_nil, List.nil_append]
            rw [List.drop_eq_nil_of_le (by omega)]
            rfl
          · simp only [Queue.rem, List.headD_cons, onesFrom, wones_zero,
              List.map_nil, List.nil_append]
            rw [List.drop_eq_nil_of_le (by omega)]
            rfl
        · rw [if_neg (by rw [hlen]; exact hlast)]
          have hi1 : idx + 1 < ((0 : BitVec (s * 8)) :: ws).length := by omega
          rw [getU_ok hi1, bind_ok]
          obtain ⟨q', e, hwf, hr⟩ := ih (((0 : BitVec (s * 8)) :: ws)[idx + 1] :: ws) (idx + 1) N
            (by simpa using hlen) (by omega) (by omega)
          have hrem : (Queue.arr (((0 : BitVec (s * 8)) :: ws)[idx + 1] :: ws) (idx + 1)).rem
              = (Queue.arr (0 :: ws) idx).rem := by
            simp only [Queue.rem, List.headD_cons]
            conv => rhs; rw [onesFrom]
            simp only [wones_zero, List.map_nil, List.nil_append]
            congr 1
            simp only [List.getElem_cons_succ, List.drop_succ_cons]
            exact (List.drop_eq_getElem_cons (by simp at hi1; omega)).symm
          rw [← hrem]
          exact ⟨q', e, hwf, hr⟩
      · have hn : oneNext w = (some (tz w), clearLowest w) := by
          unfold oneNext; rw [if_neg (by simpa using hw)]
        simp only [hn, List.set_cons_zero]
        refine ⟨.arr (clearLowest w :: ws) idx, ?_, ⟨hlen, hidx⟩, ?_⟩
        · simp only [pure_eq_ok, Queue.rem, List.headD_cons, onesFrom, wones_cons hw,
            List.map_cons, List.cons_append, List.head?_cons, mul_comm3]
        · simp only [Queue.rem, List.headD_cons, onesFrom, wones_cons hw,
            List.map_cons, List.cons_append, List.tail_cons, List.drop_succ_cons]

/-- `next` pops the head of the remaining bits. -/
theorem next_spec {N : Nat} {q : Queue s} (h : q.Wf N) :
    ∃ q', q.next = .ok (q.rem.head?, q') ∧ q'.Wf N ∧ q'.rem = q.rem.tail := by
  cases q with
  | none => exact ⟨.none, rfl, h, rfl⟩
  | prim w =>
    refine ⟨.prim (oneNext w).2, ?_, h, (oneNext_spec w).2⟩
    simp only [Queue.next, Queue.rem, ← (oneNext_spec w).1]
  | arr iters idx =>
    obtain ⟨h1, h2⟩ := h
    exact arrNext_spec (iters.length + 1) iters idx N h1 h2 (by omega)

theorem shl_allOnes_bit {n i : Nat} (hi : i < s * 8) :
    (BitVec.allOnes (s * 8) <<< n).getLsbD i = decide (n ≤ i) := by
  rw [BitVec.getLsbD_shiftLeft, BitVec.getLsbD_allOnes]
  simp only [hi, decide_true, Bool.true_and]
  by_cases h : i < n
  · simp [h]
  · simp [h]; omega

theorem wones_and_shl (w : BitVec (s * 8)) (n : Nat) :
    wones (w &&& (BitVec.allOnes (s * 8) <<< n)) = (wones w).filter (fun i => decide (n ≤ i)) := by
  unfold wones
  rw [List.filter_filter]
  apply List.filter_congr
  intro i hi
  rw [BitVec.getLsbD_and, shl_allOnes_bit (by simpa using hi), Bool.and_comm]

/-- Skipping whole words: the bits `≥ n` of words `i..`, where `n` lies in word `e`. -/
theorem onesFrom_filter_skip (hs : 0 < s) (ws : List (BitVec (s * 8))) : ∀ (i e n : Nat), i ≤ e →
    e = n / (s * 8) → e - i < ws.length →
    (onesFrom i ws).filter (fun x => decide (n ≤ x)) =
      onesFrom e ((ws.getD (e - i) 0 &&& (BitVec.allOnes (s * 8) <<< (n % (s * 8)))) ::
        ws.drop (e - i + 1)) := by
  induction ws with
  | nil => intro i e n _ _ h; simp at h
  | cons w ws ih =>
    intro i e n hie he hlt
    have hdm := Nat.div_add_mod n (s * 8)
    have hml := Nat.mod_lt n (show s * 8 > 0 by omega)
    simp only [onesFrom, List.filter_append]
    by_cases hc : i = e
    · subst hc
      rw [← he] at hdm
      simp only [Nat.sub_self, List.getD_cons_zero, Nat.zero_add, List.drop_succ_cons,
        List.drop_zero, wones_and_shl]
      congr 1
      · rw [List.filter_map]
        congr 1
        apply List.filter_congr
        intro x hx
        simp only [Function.comp]
        congr 1; apply propext; omega
      · apply filter_eq_self'
        intro x hx
        have := onesFrom_ge ws _ x hx
        rw [Nat.mul_add] at this
        simp; omega
    · have hm : s * 8 * (i + 1) ≤ s * 8 * (n / (s * 8)) := Nat.mul_le_mul_left _ (by omega)
      rw [Nat.mul_add] at hm
      have h1 : ((wones w).map (fun r => s * 8 * i + r)).filter (fun x => decide (n ≤ x)) = [] := by
        apply filter_eq_nil'
        intro x hx
        simp only [List.mem_map] at hx
        obtain ⟨r, hr, rfl⟩ := hx
        have := BitVec.lt_of_getLsbD (mem_wones.1 hr)
        simp; omega
      rw [h1, List.nil_append, ih (i + 1) e n (by omega) he (by simp at hlt; omega)]
      have e1 : e - i = (e - (i + 1)) + 1 := by omega
      rw [e1]
      simp [onesFrom]

/-- `trim_to` drops the bits below `n`. -/
theorem trimTo_spec (hs : 0 < s) {N : Nat} {q : Queue s} (h : q.Wf N) (n : Nat) :
    ∃ q', q.trimTo n = .ok q' ∧ q'.Wf N ∧ q'.rem = q.rem.filter (fun x => decide (n ≤ x)) := by
  cases q with
  | none => exact ⟨.none, rfl, h, rfl⟩
  | prim w =>
    by_cases hn : n ≥ s * 8
    · refine ⟨.prim (w &&& 0), by simp [Queue.trimTo, satShl, hn], h, ?_⟩
      simp only [Queue.rem]
      rw [filter_eq_nil']
      · have : w &&& 0 = 0 := by simp
        rw [this]; simp
      · intro x hx
        have := BitVec.lt_of_getLsbD (mem_wones.1 hx)
        simp; omega
    · refine ⟨.prim (w &&& (BitVec.allOnes (s * 8) <<< n)), ?_, h, ?_⟩
      · have : n < s * 8 := by omega
        simp only [Queue.trimTo, satShl, if_neg hn, shlP, if_pos this, bind_ok, pure_eq_ok]
      · simp only [Queue.rem, wones_and_shl]
  | arr iters idx =>
    obtain ⟨h1, h2⟩ := h
    have hdm := Nat.div_add_mod n (s * 8)
    have hml := Nat.mod_lt n (show s * 8 > 0 by omega)
    match iters, h1 with
    | [], h1 => simp at h1; omega
    | w :: ws, h1 =>
      simp only [Queue.trimTo]
      by_cases c1 : n / (s * 8) ≥ (w :: ws).length
      · rw [if_pos c1]
        refine ⟨.arr (0 :: ws) (N - 1), by simp [← h1], ⟨h1, by omega⟩, ?_⟩
        rw [filter_eq_nil']
        · simp only [Queue.rem, List.headD_cons, onesFrom, wones_zero, List.map_nil,
            List.nil_append]
          rw [List.drop_eq_nil_of_le (by simp at h1 ⊢; omega)]
          rfl
        · intro x hx
          have := onesFrom_lt _ _ x hx
          have hm : s * 8 * (idx + ((w :: ws).headD 0 :: (w :: ws).drop (idx + 1)).length) ≤
              s * 8 * (n / (s * 8)) := by
            apply Nat.mul_le_mul_left
            simp at c1 h1 ⊢; omega
          simp only [decide_eq_false_iff_not]
          omega
      · rw [if_neg c1]
        by_cases c2 : n / (s * 8) < idx
        · rw [if_pos c2]
          refine ⟨.arr (w :: ws) idx, rfl, ⟨h1, h2⟩, ?_⟩
          rw [filter_eq_self']
          intro x hx
          have := onesFrom_ge _ _ x hx
          have hm : s * 8 * (n / (s * 8) + 1) ≤ s * 8 * idx := Nat.mul_le_mul_left _ c2
          rw [Nat.mul_add] at hm
          simp only [decide_eq_true_eq]
          omega
        · rw [if_neg c2]
          simp at c1
          have key := onesFrom_filter_skip hs (w :: ws.drop idx) idx (n / (s * 8)) n (by omega) rfl
            (by simp at h1 ⊢; omega)
          by_cases c3 : n / (s * 8) = idx
          · refine ⟨.arr ((w &&& (BitVec.allOnes (s * 8) <<< (n % (s * 8)))) :: ws) idx, ?_,
              ⟨h1, h2⟩, ?_⟩
            · rw [if_neg (by simp [c3])]
              simp [getP, shlP, hml]
            · simp only [Queue.rem, List.headD_cons, List.drop_succ_cons]
              rw [key, c3]
              simp
          · rw [if_pos (by simpa using c3)]
            have hlt : n / (s * 8) < (w :: ws).length := by simp; omega
            rw [getU_ok hlt]
            refine ⟨.arr (((w :: ws)[n / (s * 8)] &&&
              (BitVec.allOnes (s * 8) <<< (n % (s * 8)))) :: ws) (n / (s * 8)), ?_,
              ⟨h1, by omega⟩, ?_⟩
            · simp [getP, shlP, hml]
            · simp only [Queue.rem, List.headD_cons, List.drop_succ_cons]
              rw [key]
              generalize hne : n / (s * 8) = ne at *
              obtain ⟨m, rfl⟩ : ∃ m, ne = m + 1 := ⟨ne - 1, by omega⟩
              have e1 : m + 1 - idx = (m - idx) + 1 := by omega
              have hl2 : m < ws.length := by simp at hlt; omega
              have g1 : (w :: ws)[m + 1] = (w :: ws.drop idx).getD (m + 1 - idx) 0 := by
                rw [e1, List.getD_cons_succ, List.getD_eq_getElem?_getD, List.getElem?_drop,
                  show idx + (m - idx) = m by omega, List.getElem?_eq_getElem hl2]
                simp
              have g2 : ws.drop (m + 1) = (w :: ws.drop idx).drop (m + 1 - idx + 1) := by
                rw [List.drop_succ_cons, List.drop_drop]; congr 1; omega
              rw [g1, g2]

/-- `traverse` feeds the callback the remaining bits. -/
theorem traverse_spec {σ : Type} {N : Nat} {q : Queue s} (h : q.Wf N)
    (f : σ → Nat → σ × Bool) (st : σ) : q.traverse f st = .ok (feed f st q.rem) := by
  cases q with
  | none => rfl
  | prim w => exact travOne_eq f st w
  | arr iters idx =>
    obtain ⟨h1, h2⟩ := h
    match iters, h1 with
    | [], h1 => simp at h1; omega
    | w :: ws, h1 =>
      have hi : idx < (w :: ws).length := by omega
      simp only [Queue.traverse, getP, List.getElem?_cons_zero, bind_ok, setU_ok w hi]
      rw [travFrom_eq, feed_map f (fun i => idx * s * 8 + i)]
      congr 2
      simp only [Queue.rem, List.headD_cons]
      rw [mul_comm3, ← onesFrom_shift, Nat.add_zero]
      congr 1
      rw [List.take_of_length_le (by simp)]
      apply List.ext_getElem?
      intro j
      rw [List.getElem?_drop, List.getElem?_set]
      cases j with
      | zero => simpa using hi
      | succ j =>
        have : idx ≠ idx + (j + 1) := by omega
        simp only [this, if_false, List.getElem?_cons_succ, List.getElem?_drop]
        congr 1; omega

theorem feed_total {σ α : Type} (f : σ → α → σ) (st : σ) (l : List α) :
    feed (fun st i => (f st i, false)) st l = (l.foldl f st, false) := by
  induction l generalizing st with
  | nil => rfl
  | cons a l ih => simp [feed, ih]

theorem forEach_spec {σ : Type} {N : Nat} {q : Queue s} (h : q.Wf N) (f : σ → Nat → σ) (st : σ) :
    q.forEach f st = .ok (q.rem.foldl f st) := by
  unfold Queue.forEach
  rw [traverse_spec h, feed_total]; rfl

/-- Where `current` stands. -/
theorem current_spec (hs : 0 < s) {N : Nat} {q : Queue s} (hN : 0 < N) (h : q.Wf N) :
    ∃ c, q.current = .ok c ∧ (c = q.rem.head?.getD (s * 8 * N) ∨
      (s * 8 ∣ c ∧ c < q.rem.head?.getD (s * 8 * N) ∧ 1 < N)) := by
  cases q with
  | none => simp only [Queue.Wf] at h; omega
  | prim w =>
    simp only [Queue.Wf] at h
    subst h
    refine ⟨tz w, rfl, .inl ?_⟩
    simp only [Queue.rem]
    by_cases hu : w = 0
    · subst hu; rw [tz_zero, wones_zero]; simp
    · rw [wones_cons hu]; rfl
  | arr iters idx =>
    obtain ⟨h1, h2⟩ := h
    match iters, h1 with
    | [], h1 => simp at h1; omega
    | w :: ws, h1 =>
      refine ⟨idx * s * 8 + tz w, rfl, ?_⟩
      simp only [Queue.rem, List.headD_cons, onesFrom, List.drop_succ_cons, mul_comm3]
      by_cases hu : w = 0
      · subst hu
        rw [tz_zero, wones_zero]
        simp only [List.map_nil, List.nil_append]
        have hge := onesFrom_ge (ws.drop idx) (idx + 1)
        have hm : s * 8 * (idx + 1) ≤ s * 8 * N := Nat.mul_le_mul_left _ h2
        have he : s * 8 * idx + s * 8 = s * 8 * (idx + 1) := by rw [Nat.mul_add]; omega
        have hd : s * 8 ∣ s * 8 * (idx + 1) := ⟨_, rfl⟩
        rw [he]
        cases hr : onesFrom (idx + 1) (ws.drop idx) with
        | nil =>
          simp only [List.head?_nil, Option.getD_none]
          by_cases hlast : idx + 1 = N
          · left; rw [hlast]
          · right
            refine ⟨hd, ?_, by omega⟩
            exact Nat.mul_lt_mul_of_pos_left (by omega) (by omega)
        | cons x xs =>
          have hx := hge x (by rw [hr]; simp)
          simp only [List.head?_cons, Option.getD_some]
          by_cases hxe : s * 8 * (idx + 1) = x
          · exact .inl hxe
          · refine .inr ⟨hd, by omega, ?_⟩
            apply Classical.byContradiction
            intro hn
            have : ws.drop idx = [] := List.drop_eq_nil_of_le (by simp at h1; omega)
            rw [this] at hr
            cases hr
      · rw [wones_cons hu]
        left
        simp only [List.map_cons, List.cons_append, List.head?_cons, Option.getD_some]

end Hibit.GBits
