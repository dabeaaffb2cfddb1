import Verif.WrongMulti
import Verif.Props.UserTree
/-!
# Property C82: user-written trees with wrong answers

`HibitTree` and `HibitTreeCursor` are safe traits (hibit_tree.rs:141, 284): nothing a safe
implementation answers should make the crate's own unsafe code undefined. True of everything except
`union` (and what is built over such a union), see `C82_fails`.
-/
namespace Hibit.Props
open Hibit

/-- A user-written tree without undefined behaviour of its own, and otherwise arbitrary: its methods
may panic, may give answers that contradict each other, and (a cursor is a state machine) answers that
change from call to call. The mask type fixes the number of words. -/
structure Tame {S C δ : Type} (I : Impl S C δ) : Prop where
  cfg : ValidCfg I.N I.D
  data : ∀ s i li, I.data s i li ≠ .error .ub
  create : ∀ s, I.new s ≠ .error .ub
  select : ∀ c s n i, I.select c s n i ≠ .error .ub
  selectU : ∀ c s n i, I.selectU c s n i ≠ .error .ub
  words : ∀ c s n i m c', I.select c s n i = .ok (m, c') ∨ I.selectU c s n i = .ok (m, c') →
    m.length = I.N
  curData : ∀ c s i, I.curData c s i ≠ .error .ub
  curDataU : ∀ c s i, I.curDataU c s i ≠ .error .ub

/-- The tree's methods always come back, with an answer or a panic. -/
structure Returns {S C δ : Type} (I : Impl S C δ) : Prop where
  data : ∀ s i li, I.data s i li ≠ .error .fuel
  create : ∀ s, I.new s ≠ .error .fuel
  select : ∀ c s n i, I.select c s n i ≠ .error .fuel
  selectU : ∀ c s n i, I.selectU c s n i ≠ .error .fuel
  curData : ∀ c s i, I.curData c s i ≠ .error .fuel
  curDataU : ∀ c s i, I.curDataU c s i ≠ .error .fuel

/-- The tree's cursor never answers `None` for the data of an index (it may panic instead). -/
def NeverNone {S C δ : Type} (I : Impl S C δ) : Prop := ∀ c s i, I.curData c s i ≠ .ok none

theorem tame_sturdy {S C δ : Type} {I : Impl S C δ} (h : Tame I)
    (hr : tm = true → Returns I) (s : S) : Sturdy tm true false I s := by
  have hsel : ∀ (x : R (Mask × C)) (b : Bool) (ms : List Mask) (n : Nat), n < I.D → x ≠ .error .ub →
      (tm = true → x ≠ .error .fuel) →
      (∀ m c', x = .ok (m, c') → m.length = I.N) →
      Nub tm x (fun r => r.1.length = I.N ∧ (ms.take n ++ [r.1]).length ≤ I.D) := by
    intro x b ms n hn hx hy hw
    refine ⟨⟨hx, hy⟩, ?_⟩
    rintro ⟨m, c'⟩ e
    refine ⟨hw m c' e, ?_⟩
    rw [List.length_append, List.length_take, List.length_singleton]
    omega
  refine ⟨fun _ ms _ => ms.length ≤ I.D, h.cfg, fun _ _ _ hl => hl, ?_, ?_, ?_, ?_, ?_, ?_⟩
  · exact fun p _ _ => ⟨⟨h.data _ _ _, fun e => (hr e).data _ _ _⟩, fun _ _ => trivial⟩
  · exact ⟨⟨h.create s, fun e => (hr e).create s⟩, fun _ _ => Nat.zero_le _⟩
  · intro c ms b n i _ _ hn _ _
    exact hsel _ b ms n hn (h.select _ _ _ _) (fun e => (hr e).select _ _ _ _) fun m c' e => h.words _ _ _ _ m c' (Or.inl e)
  · intro c ms b n i _ _ hn _ _ _
    exact hsel _ b ms n hn (h.selectU _ _ _ _) (fun e => (hr e).selectU _ _ _ _) fun m c' e => h.words _ _ _ _ m c' (Or.inr e)
  · exact fun c ms i _ _ _ => ⟨⟨h.curData _ _ _, fun e => (hr e).curData _ _ _⟩, fun _ _ e => by cases e⟩
  · exact fun _ c ms b i _ _ _ _ => ⟨⟨h.curDataU _ _ _, fun e => (hr e).curDataU _ _ _⟩, fun _ _ => trivial⟩

theorem never_sturdy {S C δ : Type} {I : Impl S C δ} (h : Tame I) (hn : NeverNone I)
    (hr : tm = true → Returns I) (s : S) :
    Sturdy tm true true I s := by
  obtain ⟨ok, hk⟩ := tame_sturdy h hr s
  refine ⟨ok, hk.cfg, hk.len, hk.data, hk.create, hk.select, hk.selectU, ?_, hk.curDataU⟩
  intro c ms i hc hl hi
  refine ⟨(hk.curData c ms i hc hl hi).1, fun d e _ m _ _ => ?_⟩
  cases d with
  | none => exact absurd e (hn c s i)
  | some d => rfl

/-- Tree expressions over well-behaved expressions and user-written trees with arbitrary answers.
`Mixed t u h I s`: with `t` all methods of the user-written trees come back (C82 does not need this,
C84 does), with `u` the expression may be iterated, with `h` it may be a source of an iterated
`union`. Only a `Tame` tree that answers `None` is without `h`, and only a `union` over such a tree
is without `u`. -/
inductive Mixed (t : Bool) : Bool → Bool → {S C δ : Type} → Impl S C δ → S → Prop
  /-- any expression over containers and well-behaved user trees -/
  | good {S C δ : Type} {I : Impl S C δ} {s : S} {M : Nat → Option δ} :
      Built true I s M → Mixed t true true I s
  /-- any user-written tree -/
  | user {S C δ : Type} {I : Impl S C δ} {s : S} : Tame I →
      (t = true → Returns I) → Mixed t true false I s
  /-- any user-written tree whose cursor always has data -/
  | userSome {S C δ : Type} {I : Impl S C δ} {s : S} : Tame I → NeverNone I →
      (t = true → Returns I) → Mixed t true true I s
  | weaken {u h u' h' : Bool} {S C δ : Type} {I : Impl S C δ} {s : S} :
      Mixed t u h I s → (u' = true → u = true) → (h' = true → h = true) → Mixed t u' h' I s
  | map {u h : Bool} {S C δ ε : Type} {I : Impl S C δ} {s : S} (f : δ → ε) :
      Mixed t u h I s → Mixed t u h (mapImpl I f) s
  | fold {u h : Bool} {S C δ β : Type} {I : Impl S C (List δ)} {s : S} (init : β) (f : β → δ → β) :
      Mixed t u h I s → Mixed t u h (foldImpl I init f) s
  | inter {u h : Bool} {S0 C0 δ0 S1 C1 δ1 : Type} {I0 : Impl S0 C0 δ0} {I1 : Impl S1 C1 δ1} {a : S0}
      {b : S1} : I0.N = I1.N → I0.D = I1.D →
      Mixed t u h I0 a → Mixed t u h I1 b → Mixed t u h (interImpl I0 I1) (a, b)
  | union {u h : Bool} {S0 C0 δ0 S1 C1 δ1 : Type} {I0 : Impl S0 C0 δ0} {I1 : Impl S1 C1 δ1} {a : S0}
      {b : S1} : I0.N = I1.N → I0.D = I1.D →
      Mixed t u h I0 a → Mixed t u h I1 b → Mixed t h h (unionImpl I0 I1) (a, b)
  | multiUnion {u h : Bool} {S C δ : Type} {I : Impl S C δ} {ss : List S} : ValidCfg I.N I.D →
      (∀ s ∈ ss, Mixed t u h I s) → Mixed t true true (multiUnionImpl I) ss
  | multiInter {h : Bool} {S C δ : Type} {I : Impl S C δ} {ss : List S} : ValidCfg I.N I.D →
      (∀ s ∈ ss, Mixed t true h I s) → Mixed t true true (multiInterImpl I) ss

theorem mixed_sturdy {u h : Bool} {S C δ : Type} {I : Impl S C δ} {s : S} (hm : Mixed t u h I s) :
    Sturdy t u h I s := by
  induction hm with
  | good hb =>
    obtain ⟨T, K, L, -⟩ := (built_isTree hb).2 rfl
    exact L.sturdy
  | user ht hr => exact tame_sturdy ht hr _
  | userSome ht hn hr => exact never_sturdy ht hn hr _
  | weaken _ hu hh ih => exact ih.mono hu hh
  | map f _ ih => exact map_sturdy f ih
  | fold z f _ ih => exact fold_sturdy z f ih
  | inter hN hD _ _ ia ib => exact inter_sturdy hN hD ia ib
  | union hN hD _ _ ia ib => exact union_sturdy hN hD ia ib
  | multiUnion hc _ ih => exact multiUnion_sturdy hc ih
  | multiInter hc _ ih => exact multiInter_sturdy hc ih

/-- `get` of a tree with possibly wrong answers. -/
theorem sturdy_get_nub {u h : Bool} {S C δ : Type} {I : Impl S C δ} {s : S} (hs : Sturdy tm u h I s)
    (k : Nat) : Nub tm (I.get s k) (fun _ => True) := by
  obtain ⟨ok, hk⟩ := hs
  unfold Impl.get
  have h1 : Nub tm (indexFrom I.N I.D k) (fun i => i = k ∧ k < width I.N ^ I.D) := by
    unfold indexFrom saturatingPow
    simp only
    split
    · refine Nub.ok ⟨rfl, ?_⟩
      omega
    · exact Nub.panic
  refine h1.bind ?_
  rintro i ⟨rfl, hi⟩
  rw [levelIndices_eq hk.cfg, bind_ok]
  have := hk.data (path (width I.N) I.D i) (path_lt I.D hi) (path_length _ _ _)
  rw [unpath_path _ _ _ hi] at this
  exact this

theorem sturdy_get {u h : Bool} {S C δ : Type} {I : Impl S C δ} {s : S} (hs : Sturdy tm u h I s)
    (k : Nat) : I.get s k ≠ .error .ub := (sturdy_get_nub hs k).1.1

/-- **C82**: looking an index up in any expression over containers, well-behaved user trees and user
trees with arbitrary answers has no undefined behaviour. -/
theorem C82_get {u h : Bool} {S C δ : Type} {I : Impl S C δ} {s : S} (hm : Mixed t u h I s) (k : Nat) :
    I.get s k ≠ .error .ub := sturdy_get (mixed_sturdy hm) k

/-- **C82**: iterating such an expression has no undefined behaviour, for any number of steps, unless
it contains a `union` over a user tree that answers `None` for data. (The full statement, for all
expressions, is false: `C82_fails`.) -/
theorem C82_iter_partial {h : Bool} {S C δ : Type} {I : Impl S C δ} {s : S} (hm : Mixed t true h I s)
    (fuel n : Nat) : I.iterRun s fuel n ≠ .error .ub := (mixed_sturdy hm).iter fuel n

/-! ### Examples: liars -/

/-- A user tree whose masks announce every index, whose cursor has data at even positions only, and
whose `data` panics at index 7. -/
def liar (N D : Nat) : Impl Unit Nat Nat where
  N := N
  D := D
  exact := false
  data _ i _ := if i = 7 then .error .panic else .ok (some i)
  dataU _ i _ := .ok i
  new _ := .ok 0
  select c _ _ _ := .ok (List.replicate N (BitVec.allOnes 64), c + 1)
  selectU c _ _ _ := .ok (List.replicate N (BitVec.allOnes 64), c + 1)
  curData c _ k := .ok (if k % 2 = 0 then some (c + k) else none)
  curDataU c _ k := .ok (c + k)

theorem liar_tame {N D : Nat} (hc : ValidCfg N D) : Tame (liar N D) where
  cfg := hc
  data := by intro s i li e; simp only [liar] at e; split at e <;> cases e
  create := fun _ e => by cases e
  select := fun _ _ _ _ e => by cases e
  selectU := fun _ _ _ _ e => by cases e
  words := by
    rintro c s n i m c' (e | e) <;> cases e <;> exact List.length_replicate
  curData := fun _ _ _ e => by cases e
  curDataU := fun _ _ _ e => by cases e

theorem liar_returns {N D : Nat} : Returns (liar N D) where
  data := by intro s i li e; simp only [liar] at e; split at e <;> cases e
  create := fun _ e => by cases e
  select := fun _ _ _ _ e => by cases e
  selectU := fun _ _ _ _ e => by cases e
  curData := fun _ _ _ e => by cases e
  curDataU := fun _ _ _ e => by cases e

theorem liar_cfg : ValidCfg 1 2 := ⟨by decide, by decide, by decide⟩

/-- The hypotheses are met by wrong trees: the liar is not a documented tree for any content, it can be
intersected with a `DenseTree`, mapped and collected in multi-trees, and iterated. -/
example : (∀ x M, ¬ TreeDocs x (liar 1 2) () M) ∧
    Mixed true true false (interImpl (Dense.impl Nat 2) (liar 1 2)) (exD, ()) ∧
    (interImpl (Dense.impl Nat 2) (liar 1 2)).iterRun (exD, ()) 9 4 =
      .ok [some (5, (56, 7)), some (64, (72, 3)), some (200, (202, 12)), none] ∧
    (interImpl (Dense.impl Nat 2) (liar 1 2)).get (exD, ()) 7 = .error .panic ∧
    Mixed true true true (multiUnionImpl (liar 1 2)) [(), ()] ∧
    (multiUnionImpl (liar 1 2)).iterRun [(), ()] 9 3 =
      .ok [some (0, [2, 2]), some (1, []), some (2, [4, 4])] ∧
    Mixed true true true (multiInterImpl (mapImpl (liar 1 2) (· * 2))) [(), ()] ∧
    (multiInterImpl (mapImpl (liar 1 2) (· * 2))).iterRun [(), ()] 9 2 =
      .ok [some (0, [4, 4]), some (1, [6, 6])] := by
  refine ⟨?_, ?_, by decide +kernel, by decide +kernel, .multiUnion liar_cfg fun _ _ =>
    .user (liar_tame liar_cfg) fun _ => liar_returns, by decide +kernel, .multiInter liar_cfg fun _ _ =>
    .map _ (.user (liar_tame liar_cfg) fun _ => liar_returns), by decide +kernel⟩
  · intro x M h
    have h2 := (getIter (docs_isTree h).1).1 7 (by decide) (by decide)
    rw [show (liar 1 2).get () 7 = .error .panic by decide +kernel] at h2
    cases h2
  · exact .inter rfl rfl (.weaken (.good exD_built) (fun e => e) (fun e => rfl))
      (.user (liar_tame liar_cfg) fun _ => liar_returns)

/-- A user tree with one announced index whose data is absent. -/
def hollow (N D : Nat) : Impl Unit Unit Nat where
  N := N
  D := D
  exact := false
  data _ _ _ := .ok none
  dataU _ _ _ := .error .panic
  new _ := .ok ()
  select _ _ _ _ := .ok (List.replicate N (BitVec.allOnes 64), ())
  selectU _ _ _ _ := .ok (List.replicate N (BitVec.allOnes 64), ())
  curData _ _ _ := .ok none
  curDataU _ _ _ := .error .panic

theorem hollow_tame {N D : Nat} (hc : ValidCfg N D) : Tame (hollow N D) where
  cfg := hc
  data := fun _ _ _ e => by cases e
  create := fun _ e => by cases e
  select := fun _ _ _ _ e => by cases e
  selectU := fun _ _ _ _ e => by cases e
  words := by
    rintro c s n i m c' (e | e) <;> cases e <;> exact List.length_replicate
  curData := fun _ _ _ e => by cases e
  curDataU := fun _ _ _ e => by cases e

theorem hollow_returns {N D : Nat} : Returns (hollow N D) where
  data := fun _ _ _ e => by cases e
  create := fun _ e => by cases e
  select := fun _ _ _ _ e => by cases e
  selectU := fun _ _ _ _ e => by cases e
  curData := fun _ _ _ e => by cases e
  curDataU := fun _ _ _ e => by cases e

/-- **C82**, the reason the claim is partial (finding 24): a safe implementation of `HibitTree` whose
mask announces an index for which its cursor's `data` is `None` makes iterating a `union` with it
undefined, through `self.data(..).unwrap_unchecked()` (union.rs:157-161). A lookup, and an
intersection, have no such problem. -/
theorem C82_fails : Tame (hollow 1 2) ∧
    (unionImpl (Dense.impl Nat 2) (hollow 1 2)).iterRun (exD, ()) 9 1 = .error .ub ∧
    (multiInterImpl (mapImpl (unionImpl (Dense.impl Nat 2) (hollow 1 2)) fun d =>
      (d.1.getD 0))).iterRun [(exD, ())] 9 1 = .error .ub ∧
    (∀ k, (unionImpl (Dense.impl Nat 2) (hollow 1 2)).get (exD, ()) k ≠ .error .ub) ∧
    (∀ fuel n, (interImpl (Dense.impl Nat 2) (hollow 1 2)).iterRun (exD, ()) fuel n ≠ .error .ub) := by
  have h1 : Mixed true true false (Dense.impl Nat 2) exD := .weaken (.good exD_built) (fun e => e) (fun e => rfl)
  have h2 : Mixed true true false (hollow 1 2) () := .user (hollow_tame liar_cfg) fun _ => hollow_returns
  exact ⟨hollow_tame liar_cfg, by decide +kernel, by decide +kernel,
    C82_get (.union rfl rfl h1 h2), C82_iter_partial (.inter rfl rfl h1 h2)⟩

end Hibit.Props
