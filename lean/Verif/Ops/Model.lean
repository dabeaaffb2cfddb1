import Verif.Interface
/-!
# Combinators: the model

`src/ops/union.rs`, `src/ops/intersection.rs`, `src/ops/map.rs`, `src/ops/multi_map_fold.rs`,
`src/ops/_multi_union.rs`, `src/ops/_multi_intersection.rs`.
`Borrowable` plumbing is elided. Type equalities demanded by the trait bounds (equal depth and
mask type of both sources) become hypotheses of the theorems.
-/
namespace Hibit

/-- union.rs:33-68 (tree) and 96-162 (cursor). A tree `Union` is the pair of its sources. -/
def unionImpl {S0 C0 δ0 S1 C1 δ1 : Type} (I0 : Impl S0 C0 δ0) (I1 : Impl S1 C1 δ1) :
    Impl (S0 × S1) (C0 × C1) (Option δ0 × Option δ1) :=
  -- union.rs:124-141 select_level_node_unchecked
  let selU := fun (c : C0 × C1) (s : S0 × S1) (n i : Nat) => do
    let (m0, c0) ← I0.select c.1 s.1 n i
    let (m1, c1) ← I1.select c.2 s.2 n i
    return (orMask m0 m1, (c0, c1))
  -- union.rs:144-154 data
  let cdata := fun (c : C0 × C1) (s : S0 × S1) (i : Nat) => do
    let d0 ← I0.curData c.1 s.1 i
    let d1 ← I1.curData c.2 s.2 i
    if d0.isNone && d1.isNone then return none else return some (d0, d1)
  -- union.rs:49-59 data
  let tdata := fun (s : S0 × S1) (index : Nat) (li : List Nat) => do
    let d0 ← I0.data s.1 index li
    let d1 ← I1.data s.2 index li
    if d0.isNone && d1.isNone then return none else return some (d0, d1)
  { N := I0.N
    D := I0.D
    exact := I0.exact && I1.exact
    data := tdata
    -- union.rs:62-67
    dataU := fun s index li => do let d ← tdata s index li; unwrapU d
    -- union.rs:107-113
    new := fun s => do
      let c0 ← I0.new s.1
      let c1 ← I1.new s.2
      return (c0, c1)
    -- union.rs:116-121
    select := selU
    selectU := selU
    curData := cdata
    -- union.rs:157-161
    curDataU := fun c s i => do let d ← cdata c s i; unwrapU d }

/-- `if d0.is_none() | d1.is_none() { None } else { Some((d0.unwrap_unchecked(), ..)) }`
(intersection.rs:54-57, 157-160). -/
def bothU {δ0 δ1 : Type} (d0 : Option δ0) (d1 : Option δ1) : R (Option (δ0 × δ1)) := do
  if d0.isNone || d1.isNone then return none
  else
    let a ← unwrapU d0
    let b ← unwrapU d1
    return some (a, b)

/-- intersection.rs:35-68 (tree) and 90-171 (cursor). -/
def interImpl {S0 C0 δ0 S1 C1 δ1 : Type} (I0 : Impl S0 C0 δ0) (I1 : Impl S1 C1 δ1) :
    Impl (S0 × S1) (C0 × C1) (δ0 × δ1) where
  N := I0.N
  D := I0.D
  exact := false
  -- intersection.rs:49-58
  data := fun s index li => do
    let d0 ← I0.data s.1 index li
    let d1 ← I1.data s.2 index li
    bothU d0 d1
  -- intersection.rs:61-67
  dataU := fun s index li => do
    let d0 ← I0.dataU s.1 index li
    let d1 ← I1.dataU s.2 index li
    return (d0, d1)
  -- intersection.rs:101-107
  new := fun s => do
    let c0 ← I0.new s.1
    let c1 ← I1.new s.2
    return (c0, c1)
  -- intersection.rs:110-128
  select := fun c s n i => do
    let (m0, c0) ← I0.select c.1 s.1 n i
    let (m1, c1) ← I1.select c.2 s.2 n i
    return (andMask m0 m1, (c0, c1))
  -- intersection.rs:131-147
  selectU := fun c s n i => do
    let (m0, c0) ← I0.selectU c.1 s.1 n i
    let (m1, c1) ← I1.selectU c.2 s.2 n i
    return (andMask m0 m1, (c0, c1))
  -- intersection.rs:150-161
  curData := fun c s i => do
    let d0 ← I0.curData c.1 s.1 i
    let d1 ← I1.curData c.2 s.2 i
    bothU d0 d1
  -- intersection.rs:164-170
  curDataU := fun c s i => do
    let d0 ← I0.curDataU c.1 s.1 i
    let d1 ← I1.curDataU c.2 s.2 i
    return (d0, d1)

/-- map.rs:45-74 (tree) and 93-141 (cursor), for a pure function `f`. -/
def mapImpl {S C δ ε : Type} (I : Impl S C δ) (f : δ → ε) : Impl S C ε where
  N := I.N
  D := I.D
  exact := I.exact
  -- map.rs:56-65
  data := fun s index li => do
    let d ← I.data s index li
    match d with
    | some d => return some (f d)
    | none => return none
  -- map.rs:68-73
  dataU := fun s index li => do
    let d ← I.dataU s index li
    return f d
  -- map.rs:101-106
  new := I.new
  -- map.rs:109-120
  select := I.select
  selectU := I.selectU
  -- map.rs:123-132
  curData := fun c s i => do
    let d ← I.curData c s i
    match d with
    | some d => return some (f d)
    | none => return none
  -- map.rs:135-140
  curDataU := fun c s i => do
    let d ← I.curDataU c s i
    return f d

/-- multi_map_fold.rs:27-63 (tree) and 79-135 (cursor), for a multi-tree with items `δ`,
initial value `init()` and pure `f`. The iterators' own `fold` methods (_multi_union.rs:98-111,
284-297, _multi_intersection.rs:295-304, 494-507) are modelled in `Verif/Ops/ValueIter.lean`, where this
definition is shown to agree with them. -/
def foldImpl {S C δ β : Type} (I : Impl S C (List δ)) (init : β) (f : β → δ → β) :
    Impl S C β where
  N := I.N
  D := I.D
  exact := I.exact
  -- multi_map_fold.rs:42-52
  data := fun s index li => do
    let d ← I.data s index li
    match d with
    | some ds => return some (ds.foldl f init)
    | none => return none
  -- multi_map_fold.rs:55-62
  dataU := fun s index li => do
    let ds ← I.dataU s index li
    return ds.foldl f init
  -- multi_map_fold.rs:92-97
  new := I.new
  -- multi_map_fold.rs:100-111
  select := I.select
  selectU := I.selectU
  -- multi_map_fold.rs:114-124
  curData := fun c s i => do
    let d ← I.curData c s i
    match d with
    | some ds => return some (ds.foldl f init)
    | none => return none
  -- multi_map_fold.rs:127-134
  curDataU := fun c s i => do
    let ds ← I.curDataU c s i
    return ds.foldl f init

/-- `const N: usize = 32` (_multi_union.rs:119, _multi_intersection.rs:318): capacity of all
`ArrayVec`s. -/
def multiCap : Nat := 32

/-- `ArrayVec::push`: panics when full. -/
def avPush {α : Type} (l : List α) (a : α) : R (List α) :=
  if l.length < multiCap then .ok (l ++ [a]) else .error .panic

/-- `ArrayVec::push_unchecked`: undefined behaviour when full. -/
def avPushU {α : Type} (l : List α) (a : α) : R (List α) :=
  if l.length < multiCap then .ok (l ++ [a]) else .error .ub

/-- `ArrayVec::from_iter(src.iter().map(Cursor::new))`: panics beyond the capacity. -/
def avCursors {S C : Type} (new : S → R C) : List S → List (S × C) → R (List (S × C))
  | [], acc => .ok acc
  | s :: ss, acc => do
    let c ← new s
    let acc ← avPush acc (s, c)
    avCursors new ss acc

/-! ### MultiUnion -/

/-- _multi_union.rs:40-48: gather the present data of all sources. -/
def muGather {S δ : Type} (data : S → R (Option δ)) : List S → List δ → R (List δ)
  | [], acc => .ok acc
  | s :: ss, acc => do
    let d ← data s
    match d with
    | some d => do let acc ← avPush acc d; muGather data ss acc
    | none => muGather data ss acc

/-- _multi_union.rs:89-95 `DataUnchecked::next` until exhaustion: `find_map` over the sources
(no capacity bound). -/
def muGatherU {S δ : Type} (data : S → R (Option δ)) : List S → R (List δ)
  | [] => .ok []
  | s :: ss => do
    let d ← data s
    let rest ← muGatherU data ss
    match d with
    | some d => return d :: rest
    | none => return rest

/-- _multi_union.rs:123-139 `Cursor`: per source its tree and cursor, and per level ≥ 1 the
indices of the sources whose selected node is non-empty. -/
structure MUCursor (S C : Type) where
  cursors : List (S × C)
  lvls : List (List Nat)

/-- _multi_union.rs:185-191: the root level selects in all sources. -/
def muSelectRoot {S C δ : Type} (I : Impl S C δ) (i : Nat) :
    List (S × C) → Mask → R (Mask × List (S × C))
  | [], acc => .ok (acc, [])
  | (s, c) :: rest, acc => do
    let (m, c') ← I.select c s 0 i
    let (acc', rest') ← muSelectRoot I i rest (orMask acc m)
    return (acc', (s, c') :: rest')

/-- _multi_union.rs:202-209 the closure `foreach` over the listed sources. -/
def muSelectSome {S C δ : Type} (I : Impl S C δ) (n i : Nat) :
    List Nat → List (S × C) → List Nat → Mask → R (Mask × List (S × C) × List Nat)
  | [], cs, ne, acc => .ok (acc, cs, ne)
  | k :: ks, cs, ne, acc => do
    let (s, c) ← getU cs k
    let (m, c') ← I.select c s n i
    let cs ← setU cs k (s, c')
    let ne ← if !isZero m then avPushU ne k else pure ne
    muSelectSome I n i ks cs ne (orMask acc m)

/-- _multi_union.rs:180-222 `select_level_node_unchecked`. -/
def muSelect {S C δ : Type} (I : Impl S C δ) (c : MUCursor S C) (n i : Nat) :
    R (Mask × MUCursor S C) := do
  let acc := zeroMask I.N
  if n = 0 then
    let (m, cs) ← muSelectRoot I i c.cursors acc
    return (m, { c with cursors := cs })
  else
    -- `get_unchecked_mut(level_n - 1)`, `clear()`
    let lvls ← setU c.lvls (n - 1) []
    let ks ← if n = 1 then pure (List.range (c.cursors.length % 256))
             else getU lvls (n - 2)
    let (m, cs, ne) ← muSelectSome I n i ks c.cursors [] acc
    let lvls ← setU lvls (n - 1) ne
    return (m, ⟨cs, lvls⟩)

/-- _multi_union.rs:271-281 `CursorData::next` until exhaustion. -/
def muCursorData {S C δ : Type} (I : Impl S C δ) (cs : List (S × C)) (i : Nat) :
    List Nat → R (List δ)
  | [] => .ok []
  | k :: ks => do
    let (s, c) ← getU cs k
    let d ← I.curData c s i
    let rest ← muCursorData I cs i ks
    match d with
    | some d => return d :: rest
    | none => return rest

/-- _multi_union.rs:225-243 `Cursor::data`. -/
def muCurData {S C δ : Type} (I : Impl S C δ) (c : MUCursor S C) (i : Nat) :
    R (Option (List δ)) := do
  if I.D = 1 then .error .panic
  else
    let ne ← unwrapU c.lvls.getLast?
    if ne.isEmpty then return none
    else
      let ds ← muCursorData I c.cursors i ne
      return some ds

/-- _multi_union.rs:26-68 (tree) and 147-251 (cursor): union of a list of trees. -/
def multiUnionImpl {S C δ : Type} (I : Impl S C δ) :
    Impl (List S) (MUCursor S C) (List δ) where
  N := I.N
  D := I.D
  exact := I.exact
  -- _multi_union.rs:37-54
  data := fun ss index li => do
    let ds ← muGather (fun s => I.data s index li) ss []
    if ds.isEmpty then return none else return some ds
  -- _multi_union.rs:57-67, 89-95
  dataU := fun ss index li => muGatherU (fun s => I.data s index li) ss
  -- _multi_union.rs:155-170
  new := fun ss => do
    let cs ← avCursors I.new ss []
    return ⟨cs, List.replicate (I.D - 1) []⟩
  select := fun c _ n i => muSelect I c n i
  selectU := fun c _ n i => muSelect I c n i
  curData := fun c _ i => muCurData I c i
  -- _multi_union.rs:246-250
  curDataU := fun c _ i => do let d ← muCurData I c i; unwrapU d

/-! ### MultiIntersection -/

/-- _multi_intersection.rs:92-116: gather data until one is missing. -/
def miGather {S δ : Type} (data : S → R (Option δ)) : List S → List δ → R (Option (List δ))
  | [], acc => .ok (some acc)
  | s :: ss, acc => do
    let d ← data s
    match d with
    | some d => do let acc ← avPush acc d; miGather data ss acc
    | none => return none

/-- _multi_intersection.rs:286-292 `DataUnchecked::next` until exhaustion. -/
def miGatherU {S δ : Type} (dataU : S → R δ) : List S → R (List δ)
  | [] => .ok []
  | s :: ss => do
    let d ← dataU s
    let rest ← miGatherU dataU ss
    return d :: rest

/-- _multi_intersection.rs:321-329 `Cursor`. -/
structure MICursor (C : Type) where
  cursors : List C
  emptyBelowN : Nat
  terminalMask : Mask

/-- _multi_intersection.rs:347-352 `ArrayVec::from_iter`. -/
def miCursors {S C : Type} (new : S → R C) : List S → List C → R (List C)
  | [], acc => .ok acc
  | s :: ss, acc => do
    let c ← new s
    let acc ← avPush acc c
    miCursors new ss acc

/-- _multi_intersection.rs:382-388, 419-425: the remaining sources; `array_iter` is advanced
in step with `unwrap_unchecked`. -/
def miSelectRest {S C : Type} (sel : C → S → R (Mask × C)) :
    List C → List S → Mask → R (Mask × List C)
  | [], _, acc => .ok (acc, [])
  | c :: cs, ss, acc => do
    let s ← unwrapU ss.head?
    let (m, c') ← sel c s
    let (acc', cs') ← miSelectRest sel cs ss.tail (andMask acc m)
    return (acc', c' :: cs')

/-- _multi_intersection.rs:371-388, 408-425: the first source starts the accumulator;
`none` when there are no sources. -/
def miSelectAll {S C : Type} (sel : C → S → R (Mask × C)) (cs : List C) (ss : List S) :
    R (Option (Mask × List C)) :=
  match cs with
  | [] => .ok none
  | c :: cs => do
    let s ← unwrapU ss.head?
    let (m, c') ← sel c s
    let (acc, cs') ← miSelectRest sel cs ss.tail m
    return some (acc, c' :: cs')

/-- _multi_intersection.rs:363-401 `select_level_node`. In value position `N` names the module
constant 32 (line 318), not the level type parameter: lines 367 and 390-391 read
`32 > empty_below_n` and `empty_below_n = 32`. -/
def miSelect {S C δ : Type} (I : Impl S C δ) (c : MICursor C) (ss : List S) (n i : Nat) :
    R (Mask × MICursor C) := do
  if multiCap > c.emptyBelowN then return (zeroMask I.N, c)
  else
    let r ← miSelectAll (fun c s => I.select c s n i) c.cursors ss
    match r with
    | none => return (zeroMask I.N, c)
    | some (acc, cs) =>
      let eb := if isZero acc then multiCap else usizeMod - 1
      let tm := if n = I.D - 1 then acc else c.terminalMask
      return (acc, ⟨cs, eb, tm⟩)

/-- _multi_intersection.rs:404-428 `select_level_node_unchecked`. -/
def miSelectU {S C δ : Type} (I : Impl S C δ) (c : MICursor C) (ss : List S) (n i : Nat) :
    R (Mask × MICursor C) := do
  let r ← miSelectAll (fun c s => I.selectU c s n i) c.cursors ss
  match r with
  | none => return (zeroMask I.N, c)
  | some (acc, cs) => return (acc, { c with cursors := cs })

/-- _multi_intersection.rs:481-489 `CursorData::next` until exhaustion. -/
def miCursorData {S C δ : Type} (I : Impl S C δ) (i : Nat) : List C → List S → R (List δ)
  | [], _ => .ok []
  | c :: cs, ss => do
    let s ← unwrapU ss.head?
    let d ← I.curDataU c s i
    let rest ← miCursorData I i cs ss.tail
    return d :: rest

/-- _multi_intersection.rs:32-152 (tree) and 338-451 (cursor). -/
def multiInterImpl {S C δ : Type} (I : Impl S C δ) :
    Impl (List S) (MICursor C) (List δ) where
  N := I.N
  D := I.D
  exact := false
  data := fun ss index li => miGather (fun s => I.data s index li) ss []
  -- _multi_intersection.rs:143-151, 286-292
  dataU := fun ss index li => miGatherU (fun s => I.dataU s index li) ss
  -- _multi_intersection.rs:346-360
  new := fun ss => do
    let cs ← miCursors I.new ss []
    return ⟨cs, usizeMod - 1, zeroMask I.N⟩
  select := fun c ss n i => miSelect I c ss n i
  selectU := fun c ss n i => miSelectU I c ss n i
  -- _multi_intersection.rs:431-439
  curData := fun c ss i => do
    let b ← getBit c.terminalMask i
    if !b then return none
    else
      let ds ← miCursorData I i c.cursors ss
      return some ds
  -- _multi_intersection.rs:442-450
  curDataU := fun c ss i => miCursorData I i c.cursors ss

end Hibit
