import Verif.Ops.Model
import Verif.Iter
/-!
# The cursor of `multi_union` under Rust's aliasing rules (Stacked Borrows)

`select_level_node_unchecked` of `src/ops/_multi_union.rs:180-222` takes a raw pointer to the slice of per-level lists ("drop lifetime
checks for `get_many`-like access", 193-194), makes from it a `&mut` to the list of the selected level, and then, while that is in
use, a `&` to the whole slice (217-218). Here are the functions of that cursor once more with every reference they make to its two
fields, as in "Stacked Borrows: An Aliasing Model for Rust" (Jung et al., POPL 2020). The source trees and their cursors are any
implementation of the traits.

Simplifications: the field `cursors` is one place, each list of a level is one place; a write through a raw pointer removes
everything above it (Rust keeps other raw pointers directly above it; there is only one here). Two-phase borrows, which only permit
more, are not modelled.
-/
namespace Hibit.MAlias
open Hibit

/-- A part of the cursor (_multi_union.rs:123-139): the field `cursors`, or the list of level `k + 1`. -/
inductive Place where
  | cursors
  | lvl (k : Nat)
deriving DecidableEq, Repr

/-- What a borrow permits: `&mut` (Unique), `&` (SharedReadOnly), `NonNull` made from `&mut` (SharedReadWrite). -/
inductive Perm where
  | uniq
  | shared
  | raw
deriving DecidableEq, Repr

/-- A borrow on a stack. -/
structure Item where
  perm : Perm
  tag : Nat
deriving DecidableEq, Repr

/-- Kinds of access. -/
inductive Acc where
  | read
  | write
deriving DecidableEq, Repr

/-- The access a new borrow counts as. -/
def Perm.acc : Perm → Acc
  | .shared => .read
  | _ => .write

/-- Does this borrow allow the access through tag `t`? -/
def Item.grants (i : Item) (w : Acc) (t : Nat) : Bool :=
  decide (i.tag = t) && (decide (w = .read) || decide (i.perm ≠ .shared))

/-- The pointer used: a tag, or `none` for the owner of the cursor. -/
abbrev Tag := Option Nat

/-- An access to a place with stack `s` (top first; the owner is not listed): the topmost borrow that grants it must be there. A
write removes every borrow above it, a read every unique one above it. -/
def access (w : Acc) (t : Tag) (s : List Item) : Option (List Item) :=
  match t with
  | none => some (if w = .write then [] else s.filter (fun i => i.perm ≠ .uniq))
  | some t =>
    match s.dropWhile (fun i => !i.grants w t) with
    | [] => none
    | rest => some (if w = .write then rest else (s.takeWhile (fun i => !i.grants w t)).filter (fun i => i.perm ≠ .uniq) ++ rest)

/-- The borrows of every place and the next unused tag. -/
structure St where
  stk : Place → List Item
  next : Nat

/-- An access to one place. -/
def touch (w : Acc) (t : Tag) (pl : Place) (z : St) : R St :=
  match access w t (z.stk pl) with
  | some s => .ok { z with stk := fun q => if q = pl then s else z.stk q }
  | none => .error .ub

/-- A new pointer to the places `ps` through `t`; the result is its tag. -/
def retag (pm : Perm) (t : Tag) (ps : List Place) (z : St) : R (Tag × St) :=
  if ∀ pl ∈ ps, (access pm.acc t (z.stk pl)).isSome = true then
    .ok (some z.next,
      ⟨fun pl => if pl ∈ ps then ⟨pm, z.next⟩ :: (access pm.acc t (z.stk pl)).getD [] else z.stk pl, z.next + 1⟩)
  else .error .ub

/-- The end of a call that got the reference `t` covering `ps` as an argument: it must still be on all stacks. -/
def leave (t : Tag) (ps : List Place) (z : St) : R Unit :=
  if ∀ pl ∈ ps, (z.stk pl).any (fun i => some i.tag == t) = true then .ok () else .error .ub

/-- A method of the part `pl` behind `t` (`&self`/`&mut self`) that reads or writes it. -/
def method (pm : Perm) (t : Tag) (pl : Place) (z : St) : R St := do
  let (t, z) ← retag pm t [pl] z
  let z ← touch pm.acc t pl z
  leave t [pl] z
  return z

/-- The slice of per-level lists. -/
def slice (L : Nat) : List Place := (List.range L).map .lvl

/-- The whole cursor. -/
def whole (L : Nat) : List Place := .cursors :: slice L

/-- The cursor and the borrows of its parts. -/
structure Cursor (S C : Type) where
  cur : MUCursor S C
  st : St

section
variable {S C δ : Type}

/-- _multi_union.rs:202-209 the closure `foreach`, called for each of `ks`: it holds `u = &mut self.cursors` and
`l = &mut *lvl_non_empty_states`. `r` is the reference to the previous level's list from which `ks` are read (218-219), if there is
one. -/
def foreach (I : Impl S C δ) (n i : Nat) (u l : Tag) (r : Option (Tag × Place)) :
    List Nat → List (S × C) → List Nat → Mask → St → R ((Mask × List (S × C) × List Nat) × St)
  | [], cs, ne, acc, z => .ok ((acc, cs, ne), z)
  | k :: ks, cs, ne, acc, z => do
    let z ← (match r with
      | some (t, pl) => touch .read t pl z
      | none => .ok z)
    let z ← method .uniq u .cursors z
    let (s, c) ← getU cs k
    let (m, c') ← I.select c s n i
    let cs ← setU cs k (s, c')
    if !isZero m then
      let z ← method .uniq l (.lvl (n - 1)) z
      let ne ← avPushU ne k
      foreach I n i u l r ks cs ne (orMask acc m) z
    else foreach I n i u l r ks cs ne (orMask acc m) z

/-- _multi_union.rs:180-200: `&mut self`, the raw pointer to the slice, `lvl_non_empty_states` from it, `clear()`, `self.cursors.len()`,
and what `foreach` captures. The tags: `self`, the raw pointer, the two captured references. -/
def enter (L n : Nat) (z : St) : R ((Tag × Tag × Tag × Tag) × St) := do
  let (s, z) ← retag .uniq none (whole L) z
  let (a, z) ← retag .uniq s (slice L) z
  let (p, z) ← retag .raw a (slice L) z
  let (b, z) ← retag .uniq p (slice L) z
  let (b', z) ← retag .uniq b (slice L) z
  let (v, z) ← retag .uniq b' [.lvl (n - 1)] z
  leave b' (slice L) z
  let z ← method .uniq v (.lvl (n - 1)) z
  let z ← method .shared s .cursors z
  let (u, z) ← retag .uniq s [.cursors] z
  let (l, z) ← retag .uniq v [.lvl (n - 1)] z
  return ((s, p, u, l), z)

/-- _multi_union.rs:217-218 `lvls_non_empty_states.as_ref().get_unchecked(level_n - 2)`: a `&` to the whole slice from the raw pointer
`p`, then one to the list. -/
def prevList (L n : Nat) (p : Tag) (z : St) : R (Tag × St) := do
  let (a, z) ← retag .shared p (slice L) z
  let (b, z) ← retag .shared a (slice L) z
  let (r, z) ← retag .shared b [.lvl (n - 2)] z
  leave b (slice L) z
  return (r, z)

/-- _multi_union.rs:180-222 `select_level_node_unchecked(&mut self)`, and `select_level_node` (172-178), which is the same. -/
def select (I : Impl S C δ) (x : Cursor S C) (n i : Nat) : R (Mask × Cursor S C) := do
  let c := x.cur
  let acc := zeroMask I.N
  if n = 0 then
    let (s, z) ← retag .uniq none (whole c.lvls.length) x.st
    let z ← method .uniq s .cursors z
    let (m, cs) ← muSelectRoot I i c.cursors acc
    leave s (whole c.lvls.length) z
    return (m, ⟨{ c with cursors := cs }, z⟩)
  else
    let lvls ← setU c.lvls (n - 1) []
    let ((s, p, u, l), z) ← enter c.lvls.length n x.st
    if n = 1 then
      let ((m, cs, ne), z) ← foreach I n i u l none (List.range (c.cursors.length % 256)) c.cursors [] acc z
      let lvls ← setU lvls (n - 1) ne
      leave s (whole c.lvls.length) z
      return (m, ⟨⟨cs, lvls⟩, z⟩)
    else
      let ks ← getU lvls (n - 2)
      let (r, z) ← prevList c.lvls.length n p z
      let ((m, cs, ne), z) ← foreach I n i u l (some (r, .lvl (n - 2))) ks c.cursors [] acc z
      let lvls ← setU lvls (n - 1) ne
      leave s (whole c.lvls.length) z
      return (m, ⟨⟨cs, lvls⟩, z⟩)

/-- `multi_union` with its cursor's borrows checked (`Ops/Model.multiUnionImpl`). `data(&self)` (225-243) and the iterator it returns
make shared references only, from the owner's; random access makes no cursor. -/
def impl (I : Impl S C δ) : Impl (List S) (Cursor S C) (List δ) where
  N := I.N
  D := I.D
  exact := I.exact
  data := (multiUnionImpl I).data
  dataU := (multiUnionImpl I).dataU
  new := fun ss => do
    let c ← (multiUnionImpl I).new ss
    return ⟨c, ⟨fun _ => [], 0⟩⟩
  select := fun x _ n i => select I x n i
  selectU := fun x _ n i => select I x n i
  curData := fun x ss i => (multiUnionImpl I).curData x.cur ss i
  curDataU := fun x ss i => (multiUnionImpl I).curDataU x.cur ss i

end

end Hibit.MAlias
