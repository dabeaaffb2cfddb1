import Verif.Ops.LawfulMU
import Verif.IterLemmas
import Verif.TreeOf
/-!
# Closures with effects

The functions given to `map` and `multi_map_fold` may have effects (through interior mutability) and may
panic. `EImpl` is a tree expression with such closures: its four data methods run in `EM σ`, where `σ`
is the state the closures share. Node masks and cursors never depend on a closure, so that part of
the tree is a plain `Impl` (`base`).

The values of multi-trees are iterators; they may call closures each time they are advanced
(`Strm`: the list of the steps still to be made, each yielding an item or nothing).
-/
namespace Hibit

/-- What a call does: returns, or unwinds. -/
inductive Outcome (τ : Type) where
  | returned (v : τ)
  | panicked
deriving DecidableEq, Repr

/-- Modelled Rust code that runs closures over the state `σ`. A panic of a closure leaves the state
reached so far. -/
def EM (σ α : Type) : Type := σ → R (Outcome α × σ)

instance {σ : Type} : Monad (EM σ) where
  pure a := fun z => .ok (.returned a, z)
  bind m f := fun z => do
    let (o, z) ← m z
    match o with
    | .returned a => f a z
    | .panicked => return (.panicked, z)

/-- Code without closures. -/
def EM.lift {σ α : Type} (r : R α) : EM σ α := fun z => do
  let a ← r
  return (.returned a, z)

/-- An iterator over items computed on the way: one entry for each source it will still ask. -/
abbrev Strm (σ δ : Type) := List (EM σ (Option δ))

/-- An iterator over items already computed (`arrayvec::IntoIter`). -/
def Strm.ready {σ δ : Type} (ds : List δ) : Strm σ δ := ds.map (fun d => pure (some d))

/-- `iterator.fold(b, f)` (_multi_union.rs:98-111, 284-297, _multi_intersection.rs:295-304, 494-507, and the
default for `IntoIter`): advance, then call `f` on the item, and so on. -/
def Strm.fold {σ δ β : Type} (f : β → δ → EM σ β) : β → Strm σ δ → EM σ β
  | b, [] => pure b
  | b, m :: ms => do
    let o ← m
    match o with
    | some d => do
      let b ← f b d
      Strm.fold f b ms
    | none => Strm.fold f b ms

/-- A tree with closures. `base` stands for everything that does not run closures: `N`, `D`, `EXACT_HIERARCHY` and
the cursor's `new`, `select_level_node` and `select_level_node_unchecked` (its data methods are
not used). The other fields are the data methods of hibit_tree.rs:165, 179, 309, 316. -/
structure EImpl (S C σ δ : Type) where
  base : Impl S C Unit
  data : S → Nat → List Nat → EM σ (Option δ)
  dataU : S → Nat → List Nat → EM σ δ
  curData : C → S → Nat → EM σ (Option δ)
  curDataU : C → S → Nat → EM σ δ

/-- A tree without closures: a container, or an expression with pure functions. -/
def eleaf {S C σ δ : Type} (I : Impl S C δ) : EImpl S C σ δ where
  base := mapImpl I (fun _ => ())
  data := fun s index li => .lift (I.data s index li)
  dataU := fun s index li => .lift (I.dataU s index li)
  curData := fun c s i => .lift (I.curData c s i)
  curDataU := fun c s i => .lift (I.curDataU c s i)

/-- map.rs:56-73 (tree), 123-140 (cursor). -/
def emap {S C σ δ ε : Type} (I : EImpl S C σ δ) (f : δ → EM σ ε) : EImpl S C σ ε where
  base := I.base
  data := fun s index li => do
    let o ← I.data s index li
    match o with
    | some d => do
      let e ← f d
      return some e
    | none => return none
  dataU := fun s index li => do
    let d ← I.dataU s index li
    f d
  curData := fun c s i => do
    let o ← I.curData c s i
    match o with
    | some d => do
      let e ← f d
      return some e
    | none => return none
  curDataU := fun c s i => do
    let d ← I.curDataU c s i
    f d

/-- union.rs:49-67 (tree), 144-161 (cursor). -/
def eunion {S0 C0 S1 C1 σ δ0 δ1 : Type} (I0 : EImpl S0 C0 σ δ0) (I1 : EImpl S1 C1 σ δ1) :
    EImpl (S0 × S1) (C0 × C1) σ (Option δ0 × Option δ1) :=
  let tdata := fun (s : S0 × S1) (index : Nat) (li : List Nat) => do
    let d0 ← I0.data s.1 index li
    let d1 ← I1.data s.2 index li
    if d0.isNone && d1.isNone then return none else return some (d0, d1)
  let cdata := fun (c : C0 × C1) (s : S0 × S1) (i : Nat) => do
    let d0 ← I0.curData c.1 s.1 i
    let d1 ← I1.curData c.2 s.2 i
    if d0.isNone && d1.isNone then return none else return some (d0, d1)
  { base := mapImpl (unionImpl I0.base I1.base) (fun _ => ())
    data := tdata
    dataU := fun s index li => do
      let o ← tdata s index li
      EM.lift (unwrapU o)
    curData := cdata
    curDataU := fun c s i => do
      let o ← cdata c s i
      EM.lift (unwrapU o) }

/-- intersection.rs:49-67 (tree), 150-170 (cursor). -/
def einter {S0 C0 S1 C1 σ δ0 δ1 : Type} (I0 : EImpl S0 C0 σ δ0) (I1 : EImpl S1 C1 σ δ1) :
    EImpl (S0 × S1) (C0 × C1) σ (δ0 × δ1) where
  base := mapImpl (interImpl I0.base I1.base) (fun _ => ())
  data := fun s index li => do
    let d0 ← I0.data s.1 index li
    let d1 ← I1.data s.2 index li
    EM.lift (bothU d0 d1)
  dataU := fun s index li => do
    let d0 ← I0.dataU s.1 index li
    let d1 ← I1.dataU s.2 index li
    return (d0, d1)
  curData := fun c s i => do
    let d0 ← I0.curData c.1 s.1 i
    let d1 ← I1.curData c.2 s.2 i
    EM.lift (bothU d0 d1)
  curDataU := fun c s i => do
    let d0 ← I0.curDataU c.1 s.1 i
    let d1 ← I1.curDataU c.2 s.2 i
    return (d0, d1)

/-- _multi_union.rs:40-48, as `muGather`. -/
def emuGather {S σ δ : Type} (data : S → EM σ (Option δ)) : List S → List δ → EM σ (List δ)
  | [], acc => pure acc
  | s :: ss, acc => do
    let o ← data s
    match o with
    | some d => do
      let acc ← EM.lift (avPush acc d)
      emuGather data ss acc
    | none => emuGather data ss acc

/-- _multi_union.rs:37-67, 89-111 (tree), 225-250, 271-297 (cursor). -/
def emultiUnion {S C σ δ : Type} (I : EImpl S C σ δ) : EImpl (List S) (MUCursor S C) σ (Strm σ δ) :=
  let cdata := fun (c : MUCursor S C) (_ : List S) (i : Nat) =>
    if I.base.D = 1 then (EM.lift (.error .panic) : EM σ (Option (Strm σ δ)))
    else do
      let ne ← EM.lift (unwrapU c.lvls.getLast?)
      if ne.isEmpty then return none
      else return some (ne.map fun k => do
        let sc ← EM.lift (getU c.cursors k)
        I.curData sc.2 sc.1 i)
  { base := mapImpl (multiUnionImpl I.base) (fun _ => ())
    data := fun ss index li => do
      let ds ← emuGather (fun s => I.data s index li) ss []
      if ds.isEmpty then return none else return some (Strm.ready ds)
    dataU := fun ss index li => return ss.map (fun s => I.data s index li)
    curData := cdata
    curDataU := fun c ss i => do
      let o ← cdata c ss i
      EM.lift (unwrapU o) }

/-- _multi_intersection.rs:92-116, as `miGather`. -/
def emiGather {S σ δ : Type} (data : S → EM σ (Option δ)) : List S → List δ → EM σ (Option (List δ))
  | [], acc => return some acc
  | s :: ss, acc => do
    let o ← data s
    match o with
    | some d => do
      let acc ← EM.lift (avPush acc d)
      emiGather data ss acc
    | none => return none

/-- _multi_intersection.rs:481-507 `CursorData`: one step per cursor, `array_iter` advanced along. -/
def emiCursorData {S C σ δ : Type} (I : EImpl S C σ δ) (i : Nat) : List C → List S → Strm σ δ
  | [], _ => []
  | c :: cs, ss =>
    (do
      let s ← EM.lift (unwrapU ss.head?)
      let d ← I.curDataU c s i
      return some d) :: emiCursorData I i cs ss.tail

/-- _multi_intersection.rs:92-151, 286-304 (tree), 431-450, 481-507 (cursor). -/
def emultiInter {S C σ δ : Type} (I : EImpl S C σ δ) : EImpl (List S) (MICursor C) σ (Strm σ δ) where
  base := mapImpl (multiInterImpl I.base) (fun _ => ())
  data := fun ss index li => do
    let o ← emiGather (fun s => I.data s index li) ss []
    return o.map Strm.ready
  dataU := fun ss index li => return ss.map (fun s => do
    let d ← I.dataU s index li
    return some d)
  curData := fun c ss i => do
    let b ← EM.lift (getBit c.terminalMask i)
    if !b then return none else return some (emiCursorData I i c.cursors ss)
  curDataU := fun c ss i => return emiCursorData I i c.cursors ss

/-- multi_map_fold.rs:42-62 (tree), 114-134 (cursor): the cursor's `data_unchecked` calls `init` before it
makes the iterator, the other three after. -/
def efold {S C σ δ β : Type} (I : EImpl S C σ (Strm σ δ)) (init : EM σ β) (f : β → δ → EM σ β) :
    EImpl S C σ β where
  base := I.base
  data := fun s index li => do
    let o ← I.data s index li
    match o with
    | some it => do
      let b ← init
      let b ← it.fold f b
      return some b
    | none => return none
  dataU := fun s index li => do
    let it ← I.dataU s index li
    let b ← init
    it.fold f b
  curData := fun c s i => do
    let o ← I.curData c s i
    match o with
    | some it => do
      let b ← init
      let b ← it.fold f b
      return some b
    | none => return none
  curDataU := fun c s i => do
    let b ← init
    let it ← I.curDataU c s i
    it.fold f b

/-- hibit_tree.rs:190-196 `get`. -/
def EImpl.get {S C σ δ : Type} (I : EImpl S C σ δ) (s : S) (index : Nat) : EM σ (Option δ) := do
  let index ← EM.lift (indexFrom I.base.N I.base.D index)
  let indices ← EM.lift (levelIndices I.base.N I.base.D index)
  I.data s index indices

/-- hibit_tree.rs:202-207 `get_unchecked`. -/
def EImpl.getU {S C σ δ : Type} (I : EImpl S C σ δ) (s : S) (index : Nat) : EM σ δ := do
  let indices ← EM.lift (levelIndices I.base.N I.base.D index)
  I.dataU s index indices

/-- iter.rs:85-147 `next`: the search loop has stored the iterator's new state before `data_unchecked` runs
the closures; if they unwind, that is the state the iterator is left in. -/
def EImpl.next {S C σ δ : Type} (I : EImpl S C σ δ) (s : S) (fuel : Nat) (st : IterSt C)
    (z : σ) : R (Outcome (Option (Nat × δ)) × IterSt C × σ) := do
  let (o, st) ← I.base.iterLoop s fuel st
  match o with
  | none => return (.returned none, st, z)
  | some levelIndex =>
    let (o, z) ← I.curDataU st.cur s levelIndex z
    match o with
    | .panicked => return (.panicked, st, z)
    | .returned d =>
      let idx ← dataBlockIndex I.base.N I.base.D st.lidx levelIndex
      return (.returned (some (idx, d)), st, z)

/-- `n` calls of `next`, each in its own `catch_unwind`: the outcomes and the final state of the closures. -/
def EImpl.take {S C σ δ : Type} (I : EImpl S C σ δ) (s : S) (fuel : Nat) :
    Nat → IterSt C → σ → R (List (Outcome (Option (Nat × δ))) × σ)
  | 0, _, z => .ok ([], z)
  | n + 1, st, z => do
    let (o, st, z) ← I.next s fuel st z
    let (os, z) ← I.take s fuel n st z
    return (o :: os, z)

/-- `iter()` and `n` calls of `next`. -/
def EImpl.run {S C σ δ : Type} (I : EImpl S C σ δ) (s : S) (fuel n : Nat) (z : σ) :
    R (List (Outcome (Option (Nat × δ))) × σ) := do
  let st ← I.base.iterNew s
  I.take s fuel n st z

/-! ## Specification: what happens at a key -/

/-- A tree with closures, seen key by key: which keys are present, and what the four ways to ask for the value at a
key do. `getU` and `curU` are only asked for present keys. -/
structure ESpec (σ δ : Type) where
  present : Nat → Bool
  /-- `get` -/
  get : Nat → EM σ (Option δ)
  /-- `get_unchecked` -/
  getU : Nat → EM σ δ
  /-- the cursor's `data` -/
  cur : Nat → EM σ (Option δ)
  /-- the cursor's `data_unchecked`; `next` -/
  curU : Nat → EM σ δ

/-- The map `M`; no closures. -/
def leafE {σ δ : Type} (M : Nat → Option δ) : ESpec σ δ where
  present := fun k => (M k).isSome
  get := fun k => pure (M k)
  getU := fun k => .lift (unwrapU (M k))
  cur := fun k => pure (M k)
  curU := fun k => .lift (unwrapU (M k))

/-- `f` on the value, if there is one. -/
def applyE {σ δ ε : Type} (f : δ → EM σ ε) : Option δ → EM σ (Option ε)
  | some d => do
    let e ← f d
    return some e
  | none => return none

/-- `map(a, f)`: what `a` does, then `f` if that gave a value. -/
def mapE {σ δ ε : Type} (A : ESpec σ δ) (f : δ → EM σ ε) : ESpec σ ε where
  present := A.present
  get := fun k => A.get k >>= applyE f
  getU := fun k => A.getU k >>= f
  cur := fun k => A.cur k >>= applyE f
  curU := fun k => A.curU k >>= f

/-- `None` if both are. -/
def eitherOf {δ0 δ1 : Type} : Option δ0 → Option δ1 → Option (Option δ0 × Option δ1)
  | none, none => none
  | a, b => some (a, b)

/-- `Some` if both are. -/
def bothOf {δ0 δ1 : Type} : Option δ0 → Option δ1 → Option (δ0 × δ1)
  | some a, some b => some (a, b)
  | _, _ => none

/-- One after the other. -/
def pairE {σ α β : Type} (a : EM σ α) (b : EM σ β) : EM σ (α × β) := do
  let x ← a
  let y ← b
  return (x, y)

/-- `union(a, b)`: always asks `a`, then `b`. -/
def unionE {σ δ0 δ1 : Type} (A : ESpec σ δ0) (B : ESpec σ δ1) : ESpec σ (Option δ0 × Option δ1) where
  present := fun k => A.present k || B.present k
  get := fun k => do
    let r ← pairE (A.get k) (B.get k)
    return eitherOf r.1 r.2
  getU := fun k => do
    let r ← pairE (A.get k) (B.get k)
    EM.lift (unwrapU (eitherOf r.1 r.2))
  cur := fun k => do
    let r ← pairE (A.cur k) (B.cur k)
    return eitherOf r.1 r.2
  curU := fun k => do
    let r ← pairE (A.cur k) (B.cur k)
    EM.lift (unwrapU (eitherOf r.1 r.2))

/-- `intersection(a, b)`: always asks `a`, then `b`, even if `a` has no value. -/
def interE {σ δ0 δ1 : Type} (A : ESpec σ δ0) (B : ESpec σ δ1) : ESpec σ (δ0 × δ1) where
  present := fun k => A.present k && B.present k
  get := fun k => do
    let r ← pairE (A.get k) (B.get k)
    return bothOf r.1 r.2
  getU := fun k => pairE (A.getU k) (B.getU k)
  cur := fun k => do
    let r ← pairE (A.cur k) (B.cur k)
    return bothOf r.1 r.2
  curU := fun k => pairE (A.curU k) (B.curU k)

/-- Asks all of them in order; the values there are. -/
def askAll {σ δ : Type} : List (EM σ (Option δ)) → EM σ (List δ)
  | [] => return []
  | m :: ms => do
    let o ← m
    let ds ← askAll ms
    return o.toList ++ ds

/-- Asks them in order until one has no value. -/
def askWhile {σ δ : Type} : List (EM σ (Option δ)) → EM σ (Option (List δ))
  | [] => return some []
  | m :: ms => do
    let o ← m
    match o with
    | none => return none
    | some d => do
      let ds ← askWhile ms
      return ds.map (d :: ·)

/-- Some key of the block of `W` consecutive keys that `k` lies in is present. -/
def blockPresent {σ δ : Type} (W : Nat) (A : ESpec σ δ) (k : Nat) : Bool :=
  (List.range W).any (fun j => A.present (k / W * W + j))

/-- `multi_union`: `get` asks all trees at once and returns the finished values; `get_unchecked` and
iteration return an iterator that asks one tree per step. In iteration the trees with nothing in the
key's terminal node are left out. -/
def multiUnionE {σ δ : Type} (W : Nat) (As : List (ESpec σ δ)) : ESpec σ (Strm σ δ) where
  present := fun k => As.any (·.present k)
  get := fun k => do
    let ds ← askAll (As.map (·.get k))
    return if ds.isEmpty then none else some (Strm.ready ds)
  getU := fun k => return As.map (·.get k)
  cur := fun k => pure (if As.any (blockPresent W · k) then
      some ((As.filter (blockPresent W · k)).map (·.cur k))
    else none)
  curU := fun k => return (As.filter (blockPresent W · k)).map (·.cur k)

/-- The value, as an iterator step. -/
def someE {σ δ : Type} (m : EM σ δ) : EM σ (Option δ) := do
  let d ← m
  return some d

/-- `multi_intersection`: `get` asks the trees in order up to the first one without a value; the others return
an iterator that asks one tree per step. -/
def multiInterE {σ δ : Type} (As : List (ESpec σ δ)) : ESpec σ (Strm σ δ) where
  present := fun k => As.all (·.present k)
  get := fun k => do
    let o ← askWhile (As.map (·.get k))
    return o.map Strm.ready
  getU := fun k => return As.map (fun A => someE (A.getU k))
  cur := fun k => pure (if As.all (·.present k) then some (As.map (fun A => someE (A.curU k))) else none)
  curU := fun k => return As.map (fun A => someE (A.curU k))

/-- `multi_map_fold`: the iterator, `init`, then the fold; in iteration `init` comes first. -/
def foldE {σ δ β : Type} (A : ESpec σ (Strm σ δ)) (init : EM σ β) (f : β → δ → EM σ β) : ESpec σ β where
  present := A.present
  get := fun k => A.get k >>= applyE (fun it => do
    let b ← init
    it.fold f b)
  getU := fun k => do
    let it ← A.getU k
    let b ← init
    it.fold f b
  cur := fun k => A.cur k >>= applyE (fun it => do
    let b ← init
    it.fold f b)
  curU := fun k => do
    let b ← init
    let it ← A.curU k
    it.fold f b

/-- `n` calls over the elements `l`: each call takes the next element and runs its closures once; when there are no
elements left it returns `None` and runs nothing. -/
def runElements {σ δ : Type} : Nat → List (Nat × EM σ δ) → σ → R (List (Outcome (Option (Nat × δ))) × σ)
  | 0, _, z => .ok ([], z)
  | n + 1, [], z => .ok (List.replicate (n + 1) (.returned none), z)
  | n + 1, (k, m) :: l, z => do
    let (o, z) ← m z
    let (os, z) ← runElements n l z
    return ((match o with
      | .returned d => .returned (some (k, d))
      | .panicked => .panicked) :: os, z)

/-- Never undefined behaviour, whatever the closures' state: returns (a value satisfying `P`) or unwinds. -/
def Total {σ α : Type} (P : α → Prop) (m : EM σ α) : Prop :=
  ∀ z, ∃ o z', m z = .ok (o, z') ∧ ∀ a, o = .returned a → P a

end Hibit
