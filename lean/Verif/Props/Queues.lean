import Verif.Bits.Generic
/-!
# Property C54: bit queues over any primitive type and array length

Specification: a queue is the ascending list of the bit positions still to come. `next` pops the
head, `trim_to(n)` drops what is below `n`, `traverse`/`for_each`/`fold` feed the rest to a callback.
`GBits.ones ws` lists the one bits of an array of words (`s` bytes each) in ascending order.
-/
namespace Hibit.Props
open Hibit Hibit.GBits

variable {s : Nat}

/-- A call on a bit queue that keeps it alive. -/
inductive QOp where
  | next
  | trimTo (n : Nat)

/-- A sequence of calls; the answers of the `next` calls and the final queue. -/
def runQ (q : Queue s) : List QOp → R (List (Option Nat) × Queue s)
  | [] => .ok ([], q)
  | .next :: ops => do
    let (o, q) ← q.next
    let (os, q) ← runQ q ops
    return (o :: os, q)
  | .trimTo n :: ops => do
    let q ← q.trimTo n
    runQ q ops

/-- The same calls on the list of bits still to come. -/
def specQ (l : List Nat) : List QOp → List (Option Nat) × List Nat
  | [] => ([], l)
  | .next :: ops => (l.head? :: (specQ l.tail ops).1, (specQ l.tail ops).2)
  | .trimTo n :: ops => specQ (l.filter (fun x => decide (n ≤ x))) ops

/-- `q` was just built from a source whose one bits are `l`, over `N` words. -/
inductive QueueFrom : Queue s → Nat → List Nat → Prop
  | prim (w : BitVec (s * 8)) : QueueFrom (.newPrim w) 1 (ones [w])
  | array (ws : List (BitVec (s * 8))) (h : 0 < ws.length) :
      QueueFrom (.newArr ws) ws.length (ones ws)
  | emptyPrim : QueueFrom (.newPrim 0) 1 []
  | emptyArr (N : Nat) (h : 0 < N) : QueueFrom (.emptyArr N) N []
  | filledPrim : QueueFrom (.newPrim (BitVec.allOnes (s * 8))) 1 (List.range (s * 8))
  | filledArr (N : Nat) (h : 0 < N) : QueueFrom (.filledArr N) N (List.range (s * 8 * N))

theorem newArr_rem (hs : 0 < s) {ws : List (BitVec (s * 8))} (h : 0 < ws.length) :
    (Queue.newArr ws).rem = ones ws := by
  match ws, h with
  | w :: ws, _ =>
    rw [← GBits.onesFrom_zero hs]
    simp [Queue.newArr, Queue.rem]

theorem ones_filled (hs : 0 < s) (N : Nat) :
    ones (List.replicate N (BitVec.allOnes (s * 8))) = List.range (s * 8 * N) := by
  unfold ones
  rw [List.length_replicate, List.filter_eq_self]
  intro i hi
  rw [List.mem_range] at hi
  have h1 : i / (s * 8) < N := Nat.div_lt_of_lt_mul hi
  have h2 := Nat.mod_lt i (show s * 8 > 0 by omega)
  rw [List.getD_eq_getElem?_getD, List.getElem?_replicate, if_pos h1, Option.getD_some,
    BitVec.getLsbD_allOnes, decide_eq_true h2]

theorem ones_single (hs : 0 < s) (w : BitVec (s * 8)) : ones [w] = GBits.wones w := by
  rw [GBits.ones_cons hs]; simp [ones]

theorem QueueFrom.wf (hs : 0 < s) {q : Queue s} {N : Nat} {l : List Nat} (h : QueueFrom q N l) :
    q.Wf N ∧ q.rem = l ∧ 0 < N := by
  cases h with
  | prim w => exact ⟨rfl, (ones_single hs w).symm, Nat.one_pos⟩
  | array ws h => exact ⟨⟨rfl, h⟩, newArr_rem hs h, h⟩
  | emptyPrim => exact ⟨rfl, GBits.wones_zero, Nat.one_pos⟩
  | emptyArr N h =>
    refine ⟨⟨by simp, by omega⟩, ?_, h⟩
    simp only [Queue.emptyArr, Queue.rem]
    have : (List.replicate N (0 : BitVec (s * 8))).headD 0 = 0 := by
      cases N <;> simp [List.replicate_succ]
    rw [this, List.drop_eq_nil_of_le (by simp; omega)]
    simp [GBits.onesFrom]
  | filledPrim =>
    refine ⟨rfl, ?_, Nat.one_pos⟩
    have := ones_filled hs 1
    rw [Nat.mul_one] at this
    rw [← this]
    exact (ones_single hs _).symm
  | filledArr N h =>
    refine ⟨⟨by simp, h⟩, ?_, h⟩
    rw [← ones_filled hs]
    exact newArr_rem hs (by simpa using h)

theorem runQ_spec (hs : 0 < s) {N : Nat} : ∀ (ops : List QOp) (q : Queue s), q.Wf N →
    ∃ q', runQ q ops = .ok ((specQ q.rem ops).1, q') ∧ q'.Wf N ∧ q'.rem = (specQ q.rem ops).2 := by
  intro ops
  induction ops with
  | nil => intro q h; exact ⟨q, rfl, h, rfl⟩
  | cons op ops ih =>
    intro q h
    cases op with
    | next =>
      obtain ⟨q1, e1, h1, r1⟩ := GBits.next_spec h
      obtain ⟨q2, e2, h2, r2⟩ := ih q1 h1
      rw [r1] at e2 r2
      exact ⟨q2, by simp only [runQ, e1, bind_ok, e2, pure_eq_ok, specQ], h2, r2⟩
    | trimTo n =>
      obtain ⟨q1, e1, h1, r1⟩ := GBits.trimTo_spec hs h n
      obtain ⟨q2, e2, h2, r2⟩ := ih q1 h1
      rw [r1] at e2 r2
      exact ⟨q2, by simp only [runQ, e1, bind_ok, e2, specQ], h2, r2⟩

/-- `ones` is the strictly ascending list of exactly the one bits: bit `j` of word `i` has position
`s*8*i + j`. -/
theorem C54_ones (ws : List (BitVec (s * 8))) : (ones ws).Pairwise (· < ·) ∧
    ∀ x, x ∈ ones ws ↔ ∃ i j, ∃ h : i < ws.length, j < s * 8 ∧ ws[i].getLsbD j = true ∧
      x = s * 8 * i + j := by
  refine ⟨List.Pairwise.filter _ List.pairwise_lt_range, fun x => ?_⟩
  unfold ones
  rw [List.mem_filter, List.mem_range]
  constructor
  · rintro ⟨h1, h2⟩
    have hp : 0 < s * 8 := Nat.pos_of_ne_zero fun e => by
      have := congrArg (· * ws.length) e
      simp only [Nat.zero_mul] at this
      omega
    have hi : x / (s * 8) < ws.length := Nat.div_lt_of_lt_mul h1
    refine ⟨x / (s * 8), x % (s * 8), hi, Nat.mod_lt _ hp, ?_, (Nat.div_add_mod x _).symm⟩
    rw [List.getD_eq_getElem?_getD, List.getElem?_eq_getElem hi] at h2
    exact h2
  · rintro ⟨i, j, hi, hj, hb, rfl⟩
    have e1 : (s * 8 * i + j) / (s * 8) = i := by
      rw [Nat.mul_add_div (by omega), Nat.div_eq_of_lt hj, Nat.add_zero]
    have e2 : (s * 8 * i + j) % (s * 8) = j := by
      rw [Nat.mul_add_mod, Nat.mod_eq_of_lt hj]
    refine ⟨?_, ?_⟩
    · have : s * 8 * (i + 1) ≤ s * 8 * ws.length := Nat.mul_le_mul_left _ hi
      rw [Nat.mul_add] at this
      omega
    · rw [e1, e2, List.getD_eq_getElem?_getD, List.getElem?_eq_getElem hi]
      exact hb

example : ones (s := 2) [0x8001, 0, 4] = [0, 15, 34] := by decide

/-- **C54**: for every primitive size, every array length, every source and every sequence of
`next`/`trim_to` calls on the fresh queue, no call panics or touches memory out of bounds and the
answers are those of the list of one bits; afterwards `traverse` (until it breaks) and `for_each`
see exactly the remaining bits in ascending order. -/
theorem C54_bit_queues (hs : 0 < s) {q0 : Queue s} {N : Nat} {l : List Nat}
    (h : QueueFrom q0 N l) (ops : List QOp) {σ : Type} (f : σ → Nat → σ × Bool)
    (g : σ → Nat → σ) (st : σ) :
    ∃ q, runQ q0 ops = .ok ((specQ l ops).1, q) ∧
      q.traverse f st = .ok (feed f st (specQ l ops).2) ∧
      q.forEach g st = .ok ((specQ l ops).2.foldl g st) := by
  obtain ⟨w, rfl, -⟩ := h.wf hs
  obtain ⟨q, e, hq, r⟩ := runQ_spec hs ops q0 w
  exact ⟨q, e, by rw [GBits.traverse_spec hq, r], by rw [forEach_spec hq, r]⟩

/-- `u8` × 3. -/
example : (do
    let (as, q) ← runQ (s := 1) (.newArr [5, 0, 130]) [.next, .trimTo 1]
    let r ← q.traverse (fun l i => (l ++ [i], i == 17)) []
    let l ← q.forEach (fun l i => l ++ [i]) []
    return (as, r, l) : R _) = .ok ([some 0], ([2, 17], true), [2, 17, 23]) := by decide

/-- **C54**, `EmptyBitQueue`: never yields anything, whatever is called. -/
theorem C54_empty_queue (ops : List QOp) {σ : Type} (f : σ → Nat → σ × Bool) (st : σ) :
    runQ (Queue.none : Queue s) ops = .ok ((specQ [] ops).1, .none) ∧
      (Queue.none : Queue s).traverse f st = .ok (st, false) := by
  refine ⟨?_, rfl⟩
  induction ops with
  | nil => rfl
  | cons op ops ih =>
    cases op with
    | next => simp only [runQ, Queue.next, bind_ok, ih, pure_eq_ok, specQ]; rfl
    | trimTo n => simp only [runQ, Queue.trimTo, bind_ok, ih, specQ]; rfl

example : runQ (Queue.none : Queue 1) [.next, .trimTo 3, .next] = .ok ([none, none], .none) := by decide

/-- **C54**, `fold` on a single word folds over its one bits in ascending order. -/
theorem C54_fold (hs : 0 < s) {β : Type} (f : β → Nat → β) (b : β) (w : BitVec (s * 8)) :
    oneFold f b w = .ok ((ones [w]).foldl f b) := by
  rw [oneFold_eq, ones_single hs]

example : oneFold (s := 1) (fun b i => 10 * b + i) 1 (0b10000110) = .ok 1127 := by decide

/-- **C54**, `current()`: the next index, or the width when exhausted; except that a queue over
several words may stand at an earlier word boundary (property C08). -/
theorem C54_current (hs : 0 < s) {q0 : Queue s} {N : Nat} {l : List Nat} (h : QueueFrom q0 N l)
    (ops : List QOp) :
    ∃ q c, runQ q0 ops = .ok ((specQ l ops).1, q) ∧ q.current = .ok c ∧
      (c = (specQ l ops).2.head?.getD (s * 8 * N) ∨
        (s * 8 ∣ c ∧ c < (specQ l ops).2.head?.getD (s * 8 * N) ∧ 1 < N)) := by
  obtain ⟨w, rfl, hN⟩ := h.wf hs
  obtain ⟨q, e, hq, r⟩ := runQ_spec hs ops q0 w
  obtain ⟨c, h1, h2⟩ := GBits.current_spec hs hN hq
  rw [r] at h2
  exact ⟨q, c, e, h1, h2⟩

/-- Non-trivial instance: a queue over three `u8`. -/
example : QueueFrom (s := 1) (.newArr [5, 0, 130]) 3 [0, 2, 17, 23] := by
  have := QueueFrom.array (s := 1) [5, 0, 130] (by decide)
  have e : ones (s := 1) [5, 0, 130] = [0, 2, 17, 23] := by decide
  rw [e] at this
  exact this

example : runQ (s := 1) (.newArr [5, 0, 130]) [.next, .trimTo 3, .next, .next, .next] =
    .ok ([some 0, some 17, some 23, none], .arr [0, 0, 130] 2) := by decide

end Hibit.Props
