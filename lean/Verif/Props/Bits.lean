import Verif.Bits.Lemmas
import Verif.Dense.NodeLemmas
/-!
# Properties C04 – C10: masks and bit iterators

Specification vocabulary (`Verif/Bits/Spec.lean`): a mask of `n` words is the boolean array
`Mask.bit` of `64·n` bits; `Mask.ones` lists the positions of its one bits in ascending order;
`feed` runs a callback over a list until it breaks.
-/
namespace Hibit.Props
open Hibit

/-- `Mask.ones m` is the strictly ascending list of exactly the one bits of `m`. -/
theorem ones_spec (m : Mask) : m.ones.Pairwise (· < ·) ∧ ∀ i, i ∈ m.ones ↔ m.bit i = true :=
  ⟨ones_pairwise m, fun _ => mem_ones⟩

/-- **C04**: `set_bit` returns the old bit, sets exactly that bit. -/
theorem C04_set_bit (flag : Bool) (m : Mask) {k : Nat} (h : k < 64 * m.length) :
    ∃ m', setBit flag m k = .ok (m.bit k, m') ∧ m'.length = m.length ∧ m'.bit k = flag ∧
      ∀ i, i ≠ k → m'.bit i = m.bit i := by
  obtain ⟨m', e, hl, hb⟩ := setBit_spec flag m h
  refine ⟨m', e, hl, by rw [hb k h, if_pos rfl], fun i hi => ?_⟩
  by_cases hlt : i < 64 * m.length
  · rw [hb i hlt, if_neg hi]
  · rw [bit_of_ge (m := m) (by omega), bit_of_ge (m := m') (by omega)]

example : setBit false [0, 5] 66 = .ok (true, [0, 1]) ∧ setBit false [0, 5] 65 = .ok (false, [0, 5]) ∧
    setBit true [5] 1 = .ok (false, [7]) := by decide

/-- **C04**: `get_bit` reads the bit. -/
theorem C04_get_bit (m : Mask) {k : Nat} (h : k < 64 * m.length) : getBit m k = .ok (m.bit k) :=
  getBit_eq m h

example : getBit [0, 5] 64 = .ok true ∧ getBit [0, 5] 65 = .ok false ∧ getBit [5] 2 = .ok true := by decide

/-- **C04**: the mask queries `is_zero` and `count_ones`, and the lane-wise `&`, `|`. -/
theorem C04_queries (m : Mask) :
    (isZero m = true ↔ ∀ i, m.bit i = false) ∧ countOnes m = m.ones.length ∧
    ∀ m' : Mask, m.length = m'.length → ∀ i,
      (andMask m m').bit i = (m.bit i && m'.bit i) ∧ (orMask m m').bit i = (m.bit i || m'.bit i) :=
  ⟨isZero_iff m, countOnes_eq m, fun _ h i => ⟨bit_andMask h i, bit_orMask h i⟩⟩

example : isZero [0, 0] = true ∧ isZero [0, 4] = false ∧ countOnes [7, 5] = 5 ∧
    andMask [6, 1] [3, 1] = [2, 1] ∧ orMask [6, 1] [3, 2] = [7, 3] := by decide

example : setBit true [0, 5] 64 = .ok (true, [0, 5]) ∧ setBit true [0, 5] 65 = .ok (false, [0, 7]) ∧
    getBit [0, 5] 66 = .ok true := by decide

/-- **C05**: `traverse_bits` feeds the callback the one bits, ascending, until it breaks. -/
theorem C05_traverse_bits {σ : Type} (f : σ → Nat → σ × Bool) (s : σ) (m : Mask) :
    traverseBits f s m = .ok (feed f s m.ones) := traverseBits_eq f s m

/-- A callback that records its arguments and breaks at the second. -/
example : traverseBits (fun l i => (l ++ [i], l.length == 1)) [] [6, 5] = .ok ([1, 2], true) ∧
    traverseBits (fun l i => (l ++ [i], false)) [] [6, 5] = .ok ([1, 2, 64, 66], false) := by decide

/-! ## Bit iterators -/

/-- A call on a bit iterator that keeps it alive. -/
inductive BOp where
  | next
  | trimTo (n : Nat)

/-- A sequence of calls; the answers of the `next` calls and the final iterator. -/
def runB (q : BitsIter) : List BOp → R (List (Option Nat) × BitsIter)
  | [] => .ok ([], q)
  | .next :: ops => do
    let (o, q) ← q.next
    let (os, q) ← runB q ops
    return (o :: os, q)
  | .trimTo n :: ops => do
    let q ← q.trimTo n
    runB q ops

/-- Specification: an iterator is the list of the bits still to come. -/
def specB (l : List Nat) : List BOp → List (Option Nat) × List Nat
  | [] => ([], l)
  | .next :: ops => (l.head? :: (specB l.tail ops).1, (specB l.tail ops).2)
  | .trimTo n :: ops => specB (l.filter (fun x => decide (n ≤ x))) ops

theorem runB_spec {N : Nat} : ∀ (ops : List BOp) (q : BitsIter), q.Wf N →
    ∃ q', runB q ops = .ok ((specB q.rem ops).1, q') ∧ q'.Wf N ∧ q'.rem = (specB q.rem ops).2 := by
  intro ops
  induction ops with
  | nil => intro q h; exact ⟨q, rfl, h, rfl⟩
  | cons op ops ih =>
    intro q h
    cases op with
    | next =>
      obtain ⟨q1, e1, h1, r1⟩ := next_spec h
      obtain ⟨q2, e2, h2, r2⟩ := ih q1 h1
      rw [r1] at e2 r2
      exact ⟨q2, by simp only [runB, e1, bind_ok, e2, pure_eq_ok, specB], h2, r2⟩
    | trimTo n =>
      obtain ⟨q1, e1, h1, r1⟩ := trimTo_spec h n
      obtain ⟨q2, e2, h2, r2⟩ := ih q1 h1
      rw [r1] at e2 r2
      exact ⟨q2, by simp only [runB, e1, bind_ok, e2, specB], h2, r2⟩

/-- **C06, C07**: for the iterator over any mask and any sequence of `next` and `trim_to` calls,
the answers are those of the list of one bits, where `next` pops the head (and answers `None` once
the list is empty, for ever) and `trim_to(n)` drops exactly the bits below `n`. -/
theorem C07_next_trim {m : Mask} (hm : 0 < m.length) (ops : List BOp) :
    ∃ q, runB (intoBitsIter m) ops = .ok ((specB m.ones ops).1, q) := by
  obtain ⟨q, e, -⟩ := runB_spec ops _ (intoBitsIter_wf hm)
  rw [intoBitsIter_rem hm] at e
  exact ⟨q, e⟩

example : (specB (Mask.ones [5, 0, 3, 0]) [.next, .trimTo 64, .next, .trimTo 129, .next, .next]).1 =
    [some 0, some 128, some 129, none] := by decide

/-- **C06**: the `k`-th call of `next` answers the `k`-th one bit, or `None` beyond the last. -/
theorem C06_next {m : Mask} (hm : 0 < m.length) (n : Nat) :
    ∃ q, runB (intoBitsIter m) (List.replicate n .next) =
      .ok ((List.range n).map (fun k => m.ones[k]?), q) := by
  have key : ∀ (n : Nat) (l : List Nat),
      (specB l (List.replicate n .next)).1 = (List.range n).map (fun k => l[k]?) := by
    intro n
    induction n with
    | zero => intro l; rfl
    | succ n ih =>
      intro l
      rw [List.replicate_succ, specB, ih, List.range_succ_eq_map, List.map_cons, List.map_map]
      congr 1
      simp [List.head?_eq_getElem?]
  obtain ⟨q, e⟩ := C07_next_trim hm (List.replicate n .next)
  rw [key] at e
  exact ⟨q, e⟩

example : ∃ q, runB (intoBitsIter [5, 2]) (List.replicate 5 .next) =
    .ok ([some 0, some 2, some 65, none, none], q) := C06_next (m := [5, 2]) (by decide) 5

/-- **C09**: `traverse` on an iterator in any state reached by `next` / `trim_to` feeds the
callback exactly the remaining bits, ascending, until it breaks. -/
theorem C09_traverse {m : Mask} (hm : 0 < m.length) (ops : List BOp) {σ : Type}
    (f : σ → Nat → σ × Bool) (s : σ) :
    ∃ os q, runB (intoBitsIter m) ops = .ok (os, q) ∧
      q.traverse f s = .ok (feed f s (specB m.ones ops).2) := by
  obtain ⟨q, e, h, r⟩ := runB_spec ops _ (intoBitsIter_wf hm)
  rw [intoBitsIter_rem hm] at r
  refine ⟨_, q, e, ?_⟩
  rw [traverse_spec h f s, r]

example : runB (intoBitsIter [5, 0, 3, 0]) [.next, .trimTo 64, .next, .next, .next] =
    .ok ([some 0, some 128, some 129, none], .arr ⟨[0, 0, 3, 0], 3⟩) := by decide

/-- `filled()`/`empty()` iterators: `empty` yields nothing. -/
theorem C06_empty {n : Nat} (hn : 0 < n) (ops : List BOp) :
    ∃ q, runB (BitsIter.empty n) ops = .ok ((specB [] ops).1, q) := by
  obtain ⟨q, e, -⟩ := runB_spec ops _ (empty_wf hn)
  rw [empty_rem hn] at e
  exact ⟨q, e⟩

example : ∃ q, runB (BitsIter.empty 4) [.next, .trimTo 70, .next] = .ok ([none, none], q) :=
  C06_empty (by decide) _

/-- **C06**: a `filled()` iterator of `n` words yields every position below `64·n`. -/
theorem C06_filled {n : Nat} (hn : 0 < n) (ops : List BOp) :
    ∃ q, runB (BitsIter.filled n) ops = .ok ((specB (List.range (64 * n)) ops).1, q) := by
  have hl : (List.replicate n (BitVec.allOnes 64)).length = n := by simp
  have e : BitsIter.filled n = intoBitsIter (List.replicate n (BitVec.allOnes 64)) := by
    unfold BitsIter.filled intoBitsIter
    match n, hn with
    | 1, _ => rfl
    | n + 2, _ => rfl
  have h := C07_next_trim (m := List.replicate n (BitVec.allOnes 64)) (by omega) ops
  have ho : Mask.ones (List.replicate n (BitVec.allOnes 64)) = List.range (64 * n) := by
    unfold Mask.ones
    rw [List.filter_eq_self.2, hl]
    intro i hi
    rw [List.mem_range, hl] at hi
    unfold Mask.bit
    rw [List.getD_eq_getElem?_getD, List.getElem?_replicate, if_pos (by omega)]
    simp only [Option.getD_some, BitVec.getLsbD_allOnes, decide_eq_true_eq]
    omega
  rw [e, ← ho]
  exact h

example : ∃ q, runB (BitsIter.filled 2) [.next, .next, .trimTo 127, .next, .next] =
    .ok ([some 0, some 1, some 127, none], q) := by
  have := C06_filled (n := 2) (by decide) [.next, .next, .trimTo 127, .next, .next]
  exact this

/-- **C08** for 64-bit masks: `current()` is the index `next()` would return, or 64. Missing: wider
masks, where it is false (`C08_fails`); what holds there is `C08_current_partial`. -/
theorem C08_current_64_partial (w : Word) (ops : List BOp) :
    ∃ os q, runB (intoBitsIter [w]) ops = .ok (os, q) ∧
      q.current = .ok ((specB (Mask.ones [w]) ops).2.head?.getD 64) := by
  obtain ⟨q, e, h, r⟩ := runB_spec ops _ (intoBitsIter_wf (m := [w]) (by simp))
  rw [intoBitsIter_rem (by simp)] at r
  refine ⟨_, q, e, ?_⟩
  rw [← r]
  cases q with
  | prim u =>
    simp only [BitsIter.current, BitsIter.rem]
    by_cases hu : u = 0
    · subst hu; rw [tz_zero, wones_eq_nil.2 rfl]; rfl
    · rw [wones_cons hu]; rfl
  | arr a =>
    exfalso
    have key : ∀ (ops : List BOp) (u : Word) os a,
        runB (.prim u) ops ≠ .ok (os, .arr a) := by
      intro ops
      induction ops with
      | nil => intro u os a h; simp [runB] at h
      | cons op ops ih =>
        intro u os a h
        cases op with
        | next =>
          simp only [runB, BitsIter.next, bind_ok] at h
          cases hr : runB (.prim (OneBitsIter.next u).2) ops with
          | error e => rw [hr] at h; cases h
          | ok r =>
            obtain ⟨os', q'⟩ := r
            rw [hr] at h
            simp only [bind_ok, pure_eq_ok, Except.ok.injEq, Prod.mk.injEq] at h
            exact ih _ os' a (by rw [hr, h.2])
        | trimTo n =>
          simp only [runB, BitsIter.trimTo] at h
          cases hs : saturatingShl (BitVec.allOnes 64) n with
          | error e => rw [hs] at h; cases h
          | ok msk =>
            rw [hs] at h
            simp only [bind_ok, pure_eq_ok] at h
            exact ih _ os a h
    exact key ops w _ a e

example : ∃ os q, runB (intoBitsIter [0b10110]) [.next, .trimTo 3] = .ok (os, q) ∧ q.current = .ok 4 :=
  C08_current_64_partial 0b10110 [.next, .trimTo 3]

/-- **C08** for masks of any width, what does hold: `current()` never exceeds the index `next()`
would return (the width when exhausted), and can differ from it only by standing at a multiple of
64. Missing: equality, which is false (`C08_fails`). -/
theorem C08_current_partial {m : Mask} (hm : 0 < m.length) (ops : List BOp) :
    ∃ os q c, runB (intoBitsIter m) ops = .ok (os, q) ∧ q.current = .ok c ∧
      (c = (specB m.ones ops).2.head?.getD (64 * m.length) ∨
        (64 ∣ c ∧ c < (specB m.ones ops).2.head?.getD (64 * m.length))) := by
  obtain ⟨q, e, h, r⟩ := runB_spec ops _ (intoBitsIter_wf hm)
  rw [intoBitsIter_rem hm] at r
  rw [← r]
  cases q with
  | prim u =>
    refine ⟨_, _, _, e, rfl, ?_⟩
    have hN : m.length = 1 := h
    simp only [BitsIter.rem, hN]
    by_cases hu : u = 0
    · subst hu; rw [tz_zero, wones_eq_nil.2 rfl]; exact .inl rfl
    · rw [wones_cons hu]; exact .inl rfl
  | arr a =>
    obtain ⟨h1, h2⟩ := h
    have h0 : 0 < a.iters.length := by omega
    refine ⟨_, _, a.idx * 8 * 8 + tz (a.iters[0]), e, ?_, ?_⟩
    · simp only [BitsIter.current, getP_some (List.getElem?_eq_getElem h0), bind_ok, pure_eq_ok]
    · have hh : a.iters.headD 0 = a.iters[0] := by
        obtain ⟨its, ix⟩ := a
        match its, h0 with
        | w :: ws, _ => rfl
      simp only [BitsIter.rem, hh, onesFrom]
      generalize a.iters[0] = w
      by_cases hu : w = 0
      · subst hu
        rw [tz_zero, wones_eq_nil.2 rfl]
        simp only [List.map_nil, List.nil_append]
        have hge := onesFrom_ge (a.iters.drop (a.idx + 1)) (a.idx + 1)
        cases hr : onesFrom (a.idx + 1) (a.iters.drop (a.idx + 1)) with
        | nil => simp only [List.head?_nil, Option.getD_none]; omega
        | cons x xs =>
          have := hge x (by rw [hr]; simp)
          simp only [List.head?_cons, Option.getD_some]; omega
      · rw [wones_cons hu]
        left
        simp only [List.map_cons, List.cons_append, List.head?_cons, Option.getD_some]
        omega

example : ∃ os q c, runB (intoBitsIter [1, 0, 0, 256]) [.next] = .ok (os, q) ∧ q.current = .ok c ∧
    (c = 200 ∨ (64 ∣ c ∧ c < 200)) := C08_current_partial (m := [1, 0, 0, 256]) (by decide) [.next]

/-- **C08** is false for wide masks: after the last bit of the first word was taken, `current()` is
64 although the next index is 200; and when exhausted in the first word it is 64 instead of 256. -/
theorem C08_fails :
    (∃ q q', runB (intoBitsIter [1, 0, 0, 256]) [.next] = .ok ([some 0], q) ∧
      q.current = .ok 64 ∧ q.next = .ok (some 200, q')) ∧
    (∃ q, runB (intoBitsIter [1, 0, 0, 0]) [.next] = .ok ([some 0], q) ∧
      q.current = .ok 64 ∧ ∃ q', q.next = .ok (none, q')) := by
  refine ⟨⟨.arr ⟨[0, 0, 0, 256], 0⟩, .arr ⟨[0, 0, 0, 256], 3⟩, ?_⟩,
    ⟨.arr ⟨[0, 0, 0, 0], 0⟩, ?_, ?_, .arr ⟨[0, 0, 0, 0], 3⟩, ?_⟩⟩ <;> decide

/-- The word a queue of `N` words stands at, starting at word `a` with the bits `l` still to come: the word
of the index last returned; the last word after a `None`; `trim_to` moves it forward to the word it
trims to. -/
def wordAfter (N : Nat) : List Nat → Nat → List BOp → Nat
  | _, a, [] => a
  | l, _, .next :: ops => wordAfter N l.tail (l.head?.elim (N - 1) (· / 64)) ops
  | l, a, .trimTo n :: ops =>
    wordAfter N (l.filter (fun x => decide (n ≤ x))) (max a (min (n / 64) (N - 1))) ops

/-- The word of a queue. -/
def _root_.Hibit.BitsIter.word : BitsIter → Nat
  | .prim _ => 0
  | .arr q => q.idx

theorem nextLoop_word : ∀ (fuel : Nat) (q : ArrayQueue) (o : Option Nat) (q' : ArrayQueue),
    ArrayQueue.nextLoop fuel q = .ok (o, q') →
    q'.iters.length = q.iters.length ∧ q'.idx = o.elim (q.iters.length - 1) (· / 64)
  | 0, q, o, q', e => by cases e
  | fuel + 1, q, o, q', e => by
    rw [ArrayQueue.nextLoop] at e
    obtain ⟨w, hw, e⟩ := bind_inv e
    unfold OneBitsIter.next at e
    by_cases h0 : w = 0
    · rw [if_pos (by simp [h0])] at e
      simp only at e
      by_cases hl : q.idx = q.iters.length - 1
      · rw [if_pos hl] at e
        cases e
        exact ⟨by simp, hl⟩
      · rw [if_neg hl] at e
        obtain ⟨x, hx, e⟩ := bind_inv e
        have := nextLoop_word fuel _ o q' e
        simpa using this
    · rw [if_neg (by simpa using h0)] at e
      cases e
      refine ⟨by simp, ?_⟩
      have := (tz_spec h0).1
      simp only [Option.elim]
      omega

theorem next_word {N : Nat} {q q' : BitsIter} {o : Option Nat} (h : q.Wf N)
    (e : q.next = .ok (o, q')) : q'.word = o.elim (N - 1) (· / 64) := by
  cases q with
  | prim w =>
    have hN : N = 1 := h
    simp only [BitsIter.next, OneBitsIter.next] at e
    by_cases h0 : w = 0
    · rw [if_pos (by simp [h0])] at e
      cases e; subst hN; rfl
    · rw [if_neg (by simpa using h0)] at e
      cases e
      have := (tz_spec h0).1
      simp only [BitsIter.word, Option.elim]; omega
  | arr a =>
    rw [BitsIter.next] at e
    obtain ⟨⟨o', a'⟩, e1, e2⟩ := bind_inv e
    cases e2
    have := (nextLoop_word _ _ _ _ e1).2
    rw [h.1] at this
    exact this

theorem trimTo_word {N : Nat} {q q' : BitsIter} {n : Nat} (h : q.Wf N)
    (e : q.trimTo n = .ok q') : q'.word = max q.word (min (n / 64) (N - 1)) := by
  cases q with
  | prim w =>
    have hN : N = 1 := h
    rw [BitsIter.trimTo] at e
    obtain ⟨x, -, e⟩ := bind_inv e
    cases e; subst hN; simp [BitsIter.word]
  | arr a =>
    obtain ⟨h1, h2⟩ := h
    rw [BitsIter.trimTo] at e
    obtain ⟨a', e1, e2⟩ := bind_inv e
    cases e2
    simp only [BitsIter.word]
    simp only [ArrayQueue.trimTo] at e1
    by_cases c1 : n / (8 * 8) ≥ a.iters.length
    · rw [if_pos c1] at e1
      cases e1
      simp only; omega
    · rw [if_neg c1] at e1
      by_cases c2 : n / (8 * 8) < a.idx
      · rw [if_pos c2] at e1
        cases e1; omega
      · rw [if_neg c2] at e1
        by_cases c3 : n / (8 * 8) = a.idx
        · simp only [ne_eq, c3, not_true_eq_false, if_false, pure_eq_ok, bind_ok] at e1
          obtain ⟨x, -, e1⟩ := bind_inv e1
          obtain ⟨y, -, e1⟩ := bind_inv e1
          cases e1
          simp only; omega
        · simp only [ne_eq, c3, not_false_eq_true, if_true] at e1
          obtain ⟨z, -, e1⟩ := bind_inv e1
          obtain ⟨q1, h1', e1⟩ := bind_inv e1
          cases h1'
          obtain ⟨x, -, e1⟩ := bind_inv e1
          obtain ⟨y, -, e1⟩ := bind_inv e1
          cases e1
          simp only; omega

theorem runB_word {N : Nat} : ∀ (ops : List BOp) (q q' : BitsIter) (os : List (Option Nat)), q.Wf N →
    runB q ops = .ok (os, q') → q'.word = wordAfter N q.rem q.word ops
  | [], q, q', os, _, e => by cases e; rfl
  | .next :: ops, q, q', os, h, e => by
    obtain ⟨q1, e1, h1, r1⟩ := next_spec h
    simp only [runB, e1, bind_ok] at e
    obtain ⟨⟨os', q2⟩, e2, e3⟩ := bind_inv e
    cases e3
    rw [runB_word ops q1 q2 os' h1 e2, wordAfter, r1, next_word h e1]
  | .trimTo n :: ops, q, q', os, h, e => by
    obtain ⟨q1, e1, h1, r1⟩ := trimTo_spec h n
    simp only [runB, e1, bind_ok] at e
    rw [runB_word ops q1 q' os h1 e, wordAfter, r1, trimTo_word h e1]

/-- **C08**, exactly what `current()` returns for masks of any width: the next index if it lies in the word
the queue stands at, otherwise the end of that word. -/
theorem C08_current_value {m : Mask} (hm : 0 < m.length) (ops : List BOp) :
    ∃ os q, runB (intoBitsIter m) ops = .ok (os, q) ∧
      q.current = .ok (match (specB m.ones ops).2.head? with
        | some j => if j / 64 = wordAfter m.length m.ones 0 ops then j
            else 64 * (wordAfter m.length m.ones 0 ops + 1)
        | none => 64 * (wordAfter m.length m.ones 0 ops + 1)) := by
  obtain ⟨q, e, h, r⟩ := runB_spec ops _ (intoBitsIter_wf hm)
  have hw := runB_word ops _ _ _ (intoBitsIter_wf hm) e
  rw [intoBitsIter_rem hm] at r hw
  have h0 : (intoBitsIter m).word = 0 := by
    unfold intoBitsIter; split <;> rfl
  rw [h0] at hw
  rw [← r, ← hw]
  refine ⟨_, q, e, ?_⟩
  generalize hW : q.word = W
  cases q with
  | prim u =>
    have hW : W = 0 := hW.symm
    subst hW
    simp only [BitsIter.rem, BitsIter.current]
    by_cases hu : u = 0
    · subst hu; rw [tz_zero, wones_eq_nil.2 rfl]; rfl
    · have := (tz_spec hu).1
      rw [wones_cons hu]
      simp only [List.head?_cons]
      rw [if_pos (by omega)]
  | arr a =>
    obtain ⟨h1, h2⟩ := h
    have hW : a.idx = W := hW
    have h0 : 0 < a.iters.length := by omega
    have hh : a.iters.headD 0 = a.iters[0] := by
      obtain ⟨its, ix⟩ := a
      match its, h0 with
      | w :: ws, _ => rfl
    simp only [BitsIter.current, getP_some (List.getElem?_eq_getElem h0), bind_ok, pure_eq_ok,
      BitsIter.rem, hh, onesFrom, hW]
    generalize a.iters[0] = w
    by_cases hu : w = 0
    · subst hu
      rw [tz_zero, wones_eq_nil.2 rfl]
      simp only [List.map_nil, List.nil_append]
      have hge := onesFrom_ge (a.iters.drop (W + 1)) (W + 1)
      cases hr : onesFrom (W + 1) (a.iters.drop (W + 1)) with
      | nil => simp only [List.head?_nil, Except.ok.injEq]; omega
      | cons x xs =>
        have := hge x (by rw [hr]; simp)
        simp only [List.head?_cons]
        rw [if_neg (by omega), Except.ok.injEq]; omega
    · have := (tz_spec hu).1
      rw [wones_cons hu]
      simp only [List.map_cons, List.cons_append, List.head?_cons]
      rw [if_pos (by omega), Except.ok.injEq]; omega

/-- **C08** holds exactly in these states: the next index lies in the word the queue stands at, or nothing is
left and the queue stands at its last word, or — by coincidence — the next index is the first of the
next word. -/
theorem C08_current_iff {m : Mask} (hm : 0 < m.length) (ops : List BOp) :
    ∃ os q c, runB (intoBitsIter m) ops = .ok (os, q) ∧ q.current = .ok c ∧
      (c = (specB m.ones ops).2.head?.getD (64 * m.length) ↔
        match (specB m.ones ops).2.head? with
        | some j => j / 64 = wordAfter m.length m.ones 0 ops ∨
            j = 64 * (wordAfter m.length m.ones 0 ops + 1)
        | none => wordAfter m.length m.ones 0 ops + 1 = m.length) := by
  obtain ⟨os, q, e, hc⟩ := C08_current_value hm ops
  refine ⟨os, q, _, e, hc, ?_⟩
  cases (specB m.ones ops).2.head? with
  | none => simp only [Option.getD_none]; omega
  | some j =>
    simp only [Option.getD_some]
    by_cases hj : j / 64 = wordAfter m.length m.ones 0 ops
    · simp [hj]
    · rw [if_neg hj]; omega

example : wordAfter 4 (Mask.ones [1, 0, 0, 256]) 0 [.next] = 0 ∧
    wordAfter 4 (Mask.ones [1, 0, 0, 256]) 0 [.next, .trimTo 70] = 1 ∧
    wordAfter 4 (Mask.ones [1, 0, 0, 256]) 0 [.next, .next] = 3 ∧
    (∃ q, runB (intoBitsIter [1, 0, 0, 256]) [.next, .trimTo 70] = .ok ([some 0], q) ∧
      q.current = .ok 128) := by
  refine ⟨by decide, by decide, by decide, .arr ⟨[0, 0, 0, 256], 1⟩, by decide, by decide⟩

/-! ## C10: rank -/

/-- **C10**: both code paths of the rank computation give, without panicking, the number of set
mask bits below `k`. -/
theorem C10_rank (mask : Word) {k : Nat} (hk : k < 64) :
    Dense.denseIndex mask k = .ok ((List.range k).countP (fun j => mask.getLsbD j)) ∧
    Dense.denseIndexBmi2 mask k = .ok ((List.range k).countP (fun j => mask.getLsbD j)) := by
  refine ⟨Dense.denseIndex_word mask hk, ?_⟩
  unfold Dense.denseIndexBmi2 Dense.bzhi popcount
  have e1 : k % 2 ^ 32 % 256 = k := by
    rw [Nat.mod_eq_of_lt (show k < 2 ^ 32 by omega), Nat.mod_eq_of_lt (by omega)]
  rw [e1]
  have hb : ∀ j, (BitVec.ofNat 64 (mask.toNat % 2 ^ k)).getLsbD j =
      (decide (j < k) && mask.getLsbD j) := by
    intro j
    rw [BitVec.getLsbD_ofNat, Nat.testBit_mod_two_pow]
    by_cases hj : j < 64
    · simp [hj, BitVec.getLsbD]
    · simp [hj, show ¬ j < k by omega]
  congr 1
  have hs : List.range 64 = List.range k ++ (List.range (64 - k)).map (k + ·) := by
    rw [← List.range_add]; congr 1; omega
  rw [hs, List.countP_append]
  have z : ((List.range (64 - k)).map (k + ·)).countP
      (fun i => (BitVec.ofNat 64 (mask.toNat % 2 ^ k)).getLsbD i) = 0 := by
    rw [List.countP_eq_zero]
    intro x hx
    simp only [List.mem_map] at hx
    obtain ⟨y, _, rfl⟩ := hx
    rw [hb]; simp; intro h; omega
  rw [z, Nat.add_zero]
  apply List.countP_congr
  intro x hx
  rw [List.mem_range] at hx
  rw [hb]; simp [hx]

example : Dense.denseIndex 0b10110 4 = .ok 2 ∧ Dense.denseIndexBmi2 0b10110 4 = .ok 2 := by decide

end Hibit.Props
