import Verif.Basic
/-!
# Compile-time loops: the model

`src/const_utils/const_int.rs:16-66, 138-151` and `src/const_utils/const_loop.rs:5-56`.
A visitor is a stateful callback `σ → Nat → R (σ × Bool)`, `true` meaning `Break`.
The type-level recursion over `Self::Dec` is recursion on the value.
-/
namespace Hibit

/-- const_int.rs:33-48 `iterate_as_range` (default) and 138-143 (zero). -/
def iterateAsRange {σ : Type} (v : σ → Nat → R (σ × Bool)) (frm : Nat) : Nat → σ → R (σ × Bool)
  | 0, s => .ok (s, false)
  | self + 1, s => do
    let (s', brk) ← iterateAsRange v frm self s
    if brk then return (s', true)
    else if self + 1 = frm then return (s', false)
    else v s' self

/-- const_int.rs:52-66 `iterate_as_range_rev` (default) and 146-151 (zero). -/
def iterateAsRangeRev {σ : Type} (v : σ → Nat → R (σ × Bool)) (frm : Nat) : Nat → σ → R (σ × Bool)
  | 0, s => .ok (s, false)
  | self + 1, s => do
    let (s', brk) ← v s self
    if brk then return (s', true)
    else if self + 1 = frm then return (s', false)
    else iterateAsRangeRev v frm self s'

/-- const_int.rs:16-20 `const_for(from, to, v)`. -/
def constFor {σ : Type} (frm to : Nat) (v : σ → Nat → R (σ × Bool)) (s : σ) : R (σ × Bool) :=
  iterateAsRange v frm to s

/-- const_int.rs:24-28 `const_for_rev(from, to, v)`. -/
def constForRev {σ : Type} (frm to : Nat) (v : σ → Nat → R (σ × Bool)) (s : σ) : R (σ × Bool) :=
  iterateAsRangeRev v frm to s

/-- const_loop.rs:7-15 forward `const_loop!`: the listed constants in order; stop at `end`,
skip those below `start`. The body may break (`break 'out`). -/
def constLoopFwd {σ : Type} (start stop : Nat) (v : σ → Nat → R (σ × Bool)) :
    List Nat → σ → R (σ × Bool)
  | [], s => .ok (s, false)
  | i :: is, s =>
    if stop = i then .ok (s, false)
    else if start ≤ i then do
      let (s', brk) ← v s i
      if brk then return (s', true) else constLoopFwd start stop v is s'
    else constLoopFwd start stop v is s

/-- const_loop.rs:18-26 reverse `const_loop!`. -/
def constLoopRevGo {σ : Type} (start stop : Nat) (v : σ → Nat → R (σ × Bool)) :
    List Nat → σ → R (σ × Bool)
  | [], s => .ok (s, false)
  | i :: is, s =>
    if start ≤ i ∧ i < stop then do
      let (s', brk) ← v s i
      if brk then return (s', true) else constLoopRevGo start stop v is s'
    else constLoopRevGo start stop v is s

/-- const_loop.rs:33-41 `const_loop!(N in start..end => body)`.
The `const { assert! }`s are compile-time errors, modelled as panics. -/
def constLoop {σ : Type} (start stop : Nat) (v : σ → Nat → R (σ × Bool)) (s : σ) :
    R (σ × Bool) :=
  if stop < 9 ∧ start ≤ stop then constLoopFwd start stop v [0,1,2,3,4,5,6,7,8] s
  else .error .panic

/-- const_loop.rs:47-55 `const_loop!(N in start..end rev => body)`. -/
def constLoopRev {σ : Type} (start stop : Nat) (v : σ → Nat → R (σ × Bool)) (s : σ) :
    R (σ × Bool) :=
  if stop < 9 ∧ start ≤ stop then constLoopRevGo start stop v [8,7,6,5,4,3,2,1,0] s
  else .error .panic

/-! ## Specification -/

/-- Run the visitor over a list of values, stopping at the first break. -/
def visitList {σ : Type} (v : σ → Nat → R (σ × Bool)) : List Nat → σ → R (σ × Bool)
  | [], s => .ok (s, false)
  | i :: is, s => do
    let (s', brk) ← v s i
    if brk then return (s', true) else visitList v is s'

/-- `from..to` as a list. -/
def rangeFromTo (frm to : Nat) : List Nat := (List.range (to - frm)).map (· + frm)

/-! ## Lemmas -/

theorem bind_assoc_R {α β γ : Type} (x : R α) (f : α → R β) (g : β → R γ) :
    ((x >>= f) >>= g) = (x >>= fun a => f a >>= g) := by
  cases x <;> rfl

theorem visitList_append {σ : Type} (v : σ → Nat → R (σ × Bool)) (l l' : List Nat) (s : σ) :
    visitList v (l ++ l') s = (do
      let (s', brk) ← visitList v l s
      if brk then return (s', true) else visitList v l' s') := by
  induction l generalizing s with
  | nil => rfl
  | cons a l ih =>
    simp only [List.cons_append, visitList, bind_assoc_R]
    congr 1; funext ⟨s', b⟩
    cases b
    · simp [ih]
    · rfl

theorem iterateAsRangeRev_zero {σ : Type} (v : σ → Nat → R (σ × Bool)) :
    ∀ (n : Nat) (s : σ), iterateAsRangeRev v 0 n s = visitList v (List.range n).reverse s := by
  intro n
  induction n with
  | zero => intro s; rfl
  | succ n ih =>
    intro s
    rw [iterateAsRangeRev, List.range_succ, List.reverse_append]
    simp only [List.reverse_cons, List.reverse_nil, List.nil_append, List.singleton_append,
      visitList]
    congr 1; funext ⟨s', b⟩
    cases b
    · simp [ih]
    · rfl

theorem constLoop_eq {σ : Type} (start stop : Nat) (v : σ → Nat → R (σ × Bool)) (s : σ)
    (h1 : stop < 9) (h2 : start ≤ stop) :
    constLoop start stop v s = visitList v (rangeFromTo start stop) s := by
  unfold constLoop
  rw [if_pos ⟨h1, h2⟩]
  have key : ∀ (n a : Nat) (s : σ), a + n = 9 → start ≤ a → a ≤ stop →
      constLoopFwd start stop v ((List.range n).map (· + a)) s = visitList v (rangeFromTo a stop) s := by
    intro n
    induction n with
    | zero => intro a s h; omega
    | succ n ih =>
      intro a s h g1 g2
      rw [List.range_succ_eq_map, List.map_cons, List.map_map]
      have hm : (List.range n).map ((· + a) ∘ Nat.succ) = (List.range n).map (· + (a + 1)) := by
        apply List.map_congr_left; intro x _; simp; omega
      rw [hm]
      simp only [constLoopFwd, Nat.zero_add]
      by_cases e : stop = a
      · subst e; simp [rangeFromTo, visitList]
      · rw [if_neg e, if_pos g1]
        have : rangeFromTo a stop = a :: rangeFromTo (a + 1) stop := by
          unfold rangeFromTo
          obtain ⟨m, hm⟩ : ∃ m, stop - a = m + 1 := ⟨stop - a - 1, by omega⟩
          rw [hm, show stop - (a + 1) = m by omega, List.range_succ_eq_map, List.map_cons,
            List.map_map]
          simp only [Nat.zero_add]
          congr 1
          apply List.map_congr_left; intro x _; simp; omega
        rw [this]
        simp only [visitList]
        congr 1; funext ⟨s', b⟩
        cases b
        · simpa using ih (a + 1) s' (by omega) (by omega) (by omega)
        · rfl
  have skip : ∀ (n a : Nat), a + n = 9 → a ≤ start →
      constLoopFwd start stop v ((List.range n).map (· + a)) s =
        visitList v (rangeFromTo start stop) s := by
    intro n
    induction n with
    | zero => intro a h; omega
    | succ n ih =>
      intro a h g1
      by_cases e : a = start
      · subst e; exact key _ _ _ h (Nat.le_refl _) h2
      · rw [List.range_succ_eq_map, List.map_cons, List.map_map]
        have hm : (List.range n).map ((· + a) ∘ Nat.succ) = (List.range n).map (· + (a + 1)) := by
          apply List.map_congr_left; intro x _; simp; omega
        rw [hm]
        simp only [constLoopFwd, Nat.zero_add]
        rw [if_neg (by omega), if_neg (by omega)]
        exact ih (a + 1) (by omega) (by omega)
  exact skip 9 0 rfl (Nat.zero_le _)

theorem constLoopRev_eq {σ : Type} (start stop : Nat) (v : σ → Nat → R (σ × Bool)) (s : σ)
    (h1 : stop < 9) (h2 : start ≤ stop) :
    constLoopRev start stop v s = visitList v (rangeFromTo start stop).reverse s := by
  unfold constLoopRev
  rw [if_pos ⟨h1, h2⟩]
  have low : ∀ (n : Nat) (s : σ), n ≤ start →
      constLoopRevGo start stop v (List.range n).reverse s = .ok (s, false) := by
    intro n
    induction n with
    | zero => intro s _; rfl
    | succ n ih =>
      intro s h
      rw [List.range_succ, List.reverse_append]
      simp only [List.reverse_cons, List.reverse_nil, List.nil_append, List.singleton_append,
        constLoopRevGo]
      rw [if_neg (by omega)]
      exact ih s (by omega)
  have mid : ∀ (n : Nat) (s : σ), start ≤ n → n ≤ stop →
      constLoopRevGo start stop v (List.range n).reverse s =
        visitList v (rangeFromTo start n).reverse s := by
    intro n
    induction n with
    | zero =>
      intro s g1 _
      simp [rangeFromTo, visitList, constLoopRevGo]
    | succ n ih =>
      intro s g1 g2
      by_cases e : start = n + 1
      · rw [low _ _ (by omega)]
        simp [rangeFromTo, ← e, visitList]
      · have : rangeFromTo start (n + 1) = rangeFromTo start n ++ [n] := by
          unfold rangeFromTo
          rw [show n + 1 - start = (n - start) + 1 by omega, List.range_succ, List.map_append]
          simp only [List.map_cons, List.map_nil]
          rw [show n - start + start = n by omega]
        rw [this, List.range_succ, List.reverse_append, List.reverse_append]
        simp only [List.reverse_cons, List.reverse_nil, List.nil_append, List.singleton_append,
          constLoopRevGo, visitList]
        rw [if_pos (by omega)]
        congr 1; funext ⟨s', b⟩
        cases b
        · simpa using ih s' (by omega) (by omega)
        · rfl
  have high : ∀ (n : Nat) (s : σ), stop ≤ n →
      constLoopRevGo start stop v (List.range n).reverse s =
        visitList v (rangeFromTo start stop).reverse s := by
    intro n
    induction n with
    | zero =>
      intro s g
      obtain rfl : stop = 0 := by omega
      exact mid 0 s h2 (Nat.le_refl _)
    | succ n ih =>
      intro s g
      by_cases e : stop = n + 1
      · subst e; exact mid _ s h2 (Nat.le_refl _)
      · rw [List.range_succ, List.reverse_append]
        simp only [List.reverse_cons, List.reverse_nil, List.nil_append, List.singleton_append,
          constLoopRevGo]
        rw [if_neg (by omega)]
        exact ih s (by omega)
  exact high 9 s (by omega)

end Hibit
