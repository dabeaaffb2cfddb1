# Formal model of tower120/hibit_tree in Lean 4

## Trusted base

* Lean 4.33.0 kernel. Theorems may depend only on `propext`, `Classical.choice`, `Quot.sound`.
  No own axioms, no `native_decide`/`bv_decide`.
* The reading of the Rust source: every definition of the model cites file and lines in `/repo`.
* Rust semantics assumed, not modelled: `Vec`/`ArrayVec` behave as lists with `push`, `swap_remove`
  and indexing; `alloc` never fails (except in C71) and never returns a live address; `u64::trailing_zeros`,
  `count_ones`, `leading_zeros` and `_bzhi_u64` follow their documentation; no unwinding out of
  user callbacks other than `Default`/`map` closures where stated (C47–C49); single threaded use
  except in C86; the aliasing rules of references (Stacked Borrows) are modelled for the nodes of DenseTree and for SparseTree only
  (C88, C89, without two-phase borrows and the inside of `Vec`); elsewhere accesses through raw pointers are judged by bounds,
  alignment, initialisation and liveness; 64-bit target (`usize` = 64 bits; finding 25).
* `level_block/small_block.rs` keeps a `union` of two `repr(Rust)` tuples and reads the first component of
  one while the other is active; the model assumes both first components lie at offset 0 (Rust does not
  promise this). Its boxed arrays, `Clone` and `Drop` are modelled in `Small/Own.lean` (C78).
* Build modes: except in `Verif/Builds` the model is the debug build without `bmi2` (overflow, shift amounts and
  `debug_assert!` are checked and panic); C81 shows that the other builds agree. C03 and finding 6 are the one difference.
* Not modelled: `src/sparse_hierarchy_orig.rs`, `ref_or_val.rs` (dead code), lifetimes/borrowing, `RefOrVal`
  borrowing plumbing, `Borrowable` other than the calls of `borrow()` (C87), performance, SIMD types (`wide`) other than as lane arrays,
  `Take`, `LendingIterator`; type-level const machinery except the `const_for` loops (C05, C44), the
  integers and arrays (C64) and `CondType` (C75).

## Conventions

* `R α = Except Err α`; `Err` = `panic` (Rust panic), `ub` (undefined behaviour: unchecked access
  out of bounds, use after free, uninitialised read, `unwrap_unchecked` on `None`, ...),
  `fuel` (loop did not finish within the given fuel, a modelling artefact that theorems exclude).
* `usize` values are `Nat`; where the code can overflow or truncate, the truncation is explicit.
* A `&mut self` method is a function returning the new state.
* Mask of width 64·n: `List (BitVec 64)` of `n` words (`u64`, `wide::u64x2`, `wide::u64x4`).
* Every property's theorems are in `Verif/Props/*.lean`, helper lemmas elsewhere. The small
  independent specifications are: `Bits/Spec` (set of bits of a mask, `bitsList`), `MapSpec` (finite
  map: `put`, `keysOf`, `valuesOf`, `card`, ...), `TreeOf` (`IsTree`/`IsTreeC`: a value of a tree type
  denotes a map; `listing`; cursor `Move`s, `LegalMoves`, `MaskSpec`), `Dense/History`,
  `Sparse/History` (operations on a map, `specRun`).
* `Lawful`/`LawfulC` (module `Interface`) are the proof-side contract of a tree implementation; the
  claims are stated with `Built` (module `Props/Trees`: the language of tree expressions, whose leaves
  are containers after any supported history, with the map each denotes), `get`, `iterRun`, `runMoves`.
  Theorems named `contract_*` are the same statements for any value obeying the contract
  (`IsTree`/`IsTreeC`); they are used in the proofs and are not listed as claims.
* Parameters `ex` (Dense) and `Ph` (Sparse) of the representation predicates say which nodes/blocks may
  be empty: `ex = AllNodes`, `Ph = []` is the normal, exact state; the others arise after a caught panic or
  from `materialize` of an inexact tree.

## Modules

| module | models |
|---|---|
| `Verif/Basic` | errors, helpers |
| `Verif/Bits/*` | `bit_utils.rs`, `bit_block.rs`, `bit_queue.rs` |
| `Verif/Index` | `lib.rs` index functions, `Index`, `index_range` |
| `Verif/Interface` | traits `HibitTree`, `HibitTreeCursor`; the contract (`Lawful`) |
| `Verif/Iter` | `iter.rs` |
| `Verif/Dense/*` | `dense_tree.rs`, `dense_tree/node.rs`, `dense_tree/from.rs` over an explicit heap |
| `Verif/Sparse/*` | `sparse_tree.rs`, `level/*`, `level_block/block.rs`, `config.rs` |
| `Verif/Ops/*` | `ops/*.rs` |
| `Verif/ConstFor` | `const_utils/const_int.rs` |
| `Verif/Dense/Panic`, `Verif/Sparse/Panic`, `*/Stale` | `get_or_insert` when the caller's `Default` panics; construction when caller code panics; which empty nodes stay behind |
| `Verif/Bytes/*` | `dense_tree/node.rs`, `dense_tree.rs`, `dense_tree/from.rs` over raw bytes (offsets, alignment, layouts, typed loads) |
| `Verif/Small/*` | `level_block/small_block.rs` (unused by the public containers); `Small/Own`: its boxed arrays on a heap, `Clone`, `Drop` |
| `Verif/Cluster/*` | `level_block/cluster_block.rs` (experimental, unused by the public containers) |
| `Verif/IterTrace`, `Verif/Unwind` | recording implementations (calls made by an iteration); panicking destructors |
| `Verif/Closures{,Law,Safe}` | every data function of every combinator with the closure calls of `map`, `multi_map_fold` in place: effects, order, panics |
| `Verif/Typed/*` | `sparse_tree_levels.rs` (macro-generated visitors and folds), `BlockPtr` and the erased pointers of `sparse_tree.rs`, over typed buffers |
| `Verif/Dense/OomMat` | `materialize` with an allocator that may refuse |
| `Verif/Dense/Wrapped` | several insertions into such a tree |
| `Verif/Dense/Full` | insertion into a tree whose data vector has 2^32 entries |
| `Verif/Dense/{Weak,WeakTree,WeakHistory}` | trees whose branch nodes may lack the sentinel cell: which operations are still correct |
| `Verif/Dense/MatE` | `materialize` of trees whose closures have effects, and its simulation by an oracle tree |
| `Verif/Dense/MatFail` | what insertions and removals do to trees materialized with too short node lengths |
| `Verif/Dense/Oom` | the allocating functions of `dense_tree` on an allocator that may refuse |
| `Verif/Levels` | `level/level.rs` next to `IntrusiveListLevel`: calls, ownership specification |
| `Verif/ConstInt` | `const_utils/const_int.rs` arithmetic, `const_array.rs` `split_last` |
| `Verif/Sources` | the source iterator of `multi_*` and its clones |
| `Verif/Alias/*`, `Verif/Props/Alias.lean` | C88: node.rs, dense_tree.rs, from.rs with every reference they make, under Stacked Borrows |
| `Verif/SAlias/*`, `Verif/Props/SAlias.lean` | C89: sparse_tree.rs and its levels with every reference they make, under Stacked Borrows |
| `Verif/MAlias/*`, `Verif/Props/MAlias.lean` | C90: the cursor of _multi_union.rs with every reference it makes to its fields, under Stacked Borrows |
| `Verif/Borrows` | operands of `map`, `union`, `intersection` behind `borrow()` |
| `Verif/Dense/MatTrace` | the select calls and allocations of `materialize` |
| `Verif/Builds/*` | index, bit, container, iterator and `materialize` code in every build (debug/release, with/without `bmi2`) |
| `Verif/Dense/MatAny.lean` | materialize through the exact path from sources whose exactness claim is false |
| `Verif/Dense/MatRec.lean`, `MatRec2` | materialize from sources with arbitrary answers: recording of the answers |
| `Verif/Props/MatAgain.lean` | C83, C82 (materialize) |
| `Verif/Props/WrongIter.lean` | C84 |
| `Verif/Builds/Wrong.lean`, `Verif/Props/WrongBuilds.lean` | C85: every build over trees with arbitrary answers |
| `Verif/Threads/*`, `Verif/Props/Threads.lean` | C86: node.rs, dense_tree.rs, from.rs, iter.rs and the combinators access by access, under every schedule |
| `Verif/IterBound.lean` | the rounds of the loop of `next` are at most `wt` |
| `Verif/Wrong.lean`, `WrongOps`, `WrongMulti` | contract for sources with arbitrary (wrong) answers, kept by the combinators |
| `Verif/CondType` | `const_utils/cond_type.rs`, `const_bool.rs` |
| `Verif/MapSpec`, `OrderSpec`, `Content`, `TreeOf` | specification: finite maps, storage order, masks of a map, `IsTree` |
| `Verif/Props/*` | the theorems for C01.. |

## Properties: what is modelled, how proved

* **C01** base-W digit split and recombination as written with shifts/masks; induction on depth.
* **C02, C03, C46** explicit saturating/wrapping power. C03 is false for width 256 depth 8 (the
  power wraps): negation + `_partial` for the others.
* **C04–C07, C09** masks as word lists; bit-level lemmas over `BitVec 64` by extensionality;
  invariant relating iterator state to its remaining bits; induction on remaining bits.
* **C08** false at word boundaries of multi-word masks: negation, `_partial`, and the exact set of states where it holds.
* **C10** both rank code paths as functions of a `BitVec 64`.
* **C11–C17** DenseTree over an explicit heap of nodes with uninitialised cells, capacity, length,
  sentinel, statics, realloc-by-doubling; representation predicate with footprint (separation
  style), refinement to a finite map, lifted to histories by induction.
* **C18** false (UB): negation with witness for every depth-1 tree that contains the key.
* **C19–C26** SparseTree with level vectors, free lists through mask words, truncating index
  types; invariant with ghost map from live blocks to prefixes; refinement to a finite map.
  C25 false for width 256: negation; positive for the configurations where it holds.
* **C27, C28** literal state machine of `Iter::next` with fuel, for every tree satisfying the
  cursor contract; measure argument for termination.
* **C29, C30, C39** fields of the contract, proved for each container and combinator;
  C39 false for multi_union: negation.
* **C31–C38, C41** each combinator modelled literally, contract preserved; C37, C38 have negations.
  `Props/Limits.lean` pins the exact domain on which C34 (depth 1), C37, C38 and C39 fail.
* **C40** from the exactness field of the contract; false for a DenseTree materialized from a
  non-exact tree (see C43). All masks of such trees, and the exact condition,
  are in `Props/MatMasks.lean` (the nodes built are those on a set path to a terminal node, `LiveS`).
* **C42, C43** materialisation functions over the heap; C43 false (node length off by one,
  empty terminal nodes kept, empty result): negations and `_partial`. Later histories that create or
  free no node commute with repairing the lengths (`Dense/InPlace.lean`).
  `C43_insert_only_partial` (`Dense/Weak*.lean`, invariant where a branch node may lack its sentinel):
  insertions of any keys and reads/removals in occupied blocks stay correct;
  `C43_fails_insert_any` / `C43_fails_remove_any` characterise the damage for every materialized tree:
  `Verif/Dense/MatFail.lean` shows that every branch node is full (`TightB`), so the sentinel cell is
  overwritten resp. the wrong cells are shifted, and follows the walk of a later lookup to it.
* **C44** the type-level recursion as a function; false for lower bounds ≥ 2 resp. ≥ 1; exact characterisation.
* **C45** from C11/C19/C27 at the initial state.
* **C47, C48** `get_or_insert` with a panicking `Default` stops after the walk; the representation
  invariants have a parameter saying which nodes/blocks may be empty (`ex` for DenseTree: the nodes for which exactness is
  claimed; `Ph` for SparseTree: the keys whose default panicked), so the same refinement proofs cover
  states after a caught panic. C48 false: negations; positive part (`Dense/Stale`, `Sparse/Stale`): a bit
  without a key below it can only come from a *stale* key (its default panicked while it was absent and
  nothing has been removed from its block since), and without stale keys the tree is exact again.
* **C49** the vectors of length 1 with an uninitialised element that are live while caller code
  runs; false: negations, and the non-panicking part.
* **C50** the mask at a valid prefix of an exact tree is a function of the content; so are legality
  of moves, masks, `get`, iteration.
* **C51** association-list specification (`OrderSpec`); code inverted to show how it writes the two vectors, linked to keys by the refinement invariant; induction over histories.
* **C52** end-to-end: containers by history, combinators and iteration by the generic contract; `itemsOf` = what a consuming loop sees. Floats replaced by integers. `Props/SparseVector`: examples/sparse_vector.rs as a whole.
* **C53** memory footprint of DenseTree: the live node paths of the invariant are exactly the proper prefixes of the coordinates of stored keys (exactness + closure), counted level by level (`Dense/Footprint.lean`, `Props/Footprint.lean`).
* **C54** generic bit queues: model parameterised by size_of::<P>() and N (`Bits/Generic.lean`), proved against the list of bits still to come, for all call sequences (`Props/Queues.lean`).
* **C55** unwinding is modelled in `Verif/Unwind.lean` (order of slice drops, fields dropped after `Drop::drop` unwinds, abort at a second panic); theorems over every history by the representation invariant, failure stated as a theorem for every tree with exactly one such value.
* **C56** the four iterator types as state machines with separate next/fold/size_hint (`Ops/ValueIter`); agreement with the list model by an invariant kept by next; multi_map_fold remodelled with the iterators' own folds and shown to be a lawful tree.
* **C57** `IterTrace.lean`: a recording cursor wrapped round any implementation; the exact sequence of select calls of `iter()`/`next()` is computed (`traceSpec`) and proved for every tree with exact hierarchy by following the search loop's invariant; recording is proved transparent. Theorems in `Props/Trace.lean`.
* **C58** `IterTrace.lean`: the list of nodes still pending in the level iterators is an invariant of the search loop; `Props/Trace.lean` characterises membership (marked paths) and order (lexicographic).
* **C59** Small/Model.lean models small_block.rs function by function (the union, the population bytes with u8 arithmetic, ptr::copy with bounds); Small/Lemmas.lean has the representation invariant (inline cells = items in mask order, populations = ranks of word starts); Props/Blocks.lean the table specification and the theorems by induction over the call sequence.
* **C60** Props/Algebra.lean: observational equality SameTree; each law follows from C41 (get and iteration of every expression are its pointwise meaning) and a pointwise case analysis.
* **C61** a second model of the nodes as arrays of bytes at `repr(C)` offsets (`Verif/Bytes/Model.lean`, `Mat.lean`): loads and stores check alignment, bounds, initialisation and type, `dealloc`/`realloc` check the layout size. `Verif/Bytes/{Mem,Sim,Tree,Mat}.lean` prove a simulation from the cell model up to a renaming of addresses (the cell model never reuses an address, the byte allocator may); the theorems of C11, C14, C43 then hold of the byte model in every initial memory with every allocator. Not modelled: an allocator that returns null.
* **C62** `Verif/Closures.lean`: the combinators' data functions in a state-and-panic monad `EM`, closures arbitrary; masks and presence never depend on a closure. Specification `ESpec` (present, and the exact computation of get / get_unchecked / cursor data), `runElements` (what n calls of next do). Proof: `ELaw` per combinator, invariant of the search loop (as C27); `ESafe`: every computation terminates without UB.
* **C63** `Verif/Levels.lean` models `Level` next to the existing `IntrusiveListLevel`; invariant: the linked list through the blocks equals the stack in the vector; induction over the calls.
* **C64** `Verif/ConstInt.lean`: a compile-time integer is its value; `split_last` with checked reads.
* **C65** `Verif/Bytes/Shared.lean`, `Props/Shared.lean`: a world with one byte memory and any number of tree handles; `Reach` relates reachable worlds to their meaning (maps, grades and own blocks); the grade of a tree (`full`, `loose`, `block`, `damaged`) is what the findings 2, 4 and 14 leave it of its operations. Invariant: the address sets of the trees are disjoint from each other and from the program's blocks; each tree is represented with the rest of memory as frame (the frame rule is part of the simulation of C61).
* **C66** Cluster/Model.lean models cluster_block.rs function by function over 16-bit views of the mask words; Cluster/Lemmas.lean has the representation (per piece: items in order, zeros behind; distinct arrays) and the exact effect of get_or_insert (write at the rank, nothing moved); Props/Cluster.lean the theorems, over the table specification of C59.
* **C67** inversion of the node operations and an induction over the levels of the descent, with the invariant that once a node is new all further ones are new and not full; the count of missing nodes is translated to key ranges by the footprint lemmas of C53
* **C68** invariant cap <= 2*len preserved by the inversion lemmas of C67; the counterexample runs in the kernel
* **C69** `TreeDocs` states the documented behaviour of `HibitTree`/`HibitTreeCursor` in terms of calls and results only; `docs_isTree` constructs the denotation and cursor relation of the internal contract from it (cursor states = results of legal histories), and `isTree_docs`/`isTreeC_docs` are the converse. `Built.custom` adds such trees to the expressions all other theorems quantify over. `everywhere` is a concrete user tree; `forgetful` one that breaks the documentation.
* **C70** Step-by-step account of which block each step of insertStep / removeLoop / moveLast writes (Sparse/Cost.lean: Diff, insertWalk_cost, removeLoop_cost), tied to the stored keys by the refinement invariant.
* **C71** The allocating functions are re-stated with a predicate `ok` on request numbers (Dense/Oom.lean); `Guard` relates each to the original one by a compositional simulation. C71_oom_partial by induction over the history; C71_no_alloc and C71_fails combine it with the exact allocation counts of C67.
* **C72** Verif/Typed/Model.lean re-states the tree with the macro's index lists, unrolled folds and matches, erased pointers tagged with the buffer and level they came from; reading with another type or after a push is ub. Proof: a relation that preserves both results and failures (Rel), function by function, then LawfulC transfer for cursors and iteration.
* **C73** Props/Access.lean: induction over the descent; the list of words is collected on the way, the answers compared in any tree agreeing on them.
* **C74** `Dense/Full.lean` runs the insertion with the wrapped index through the heap invariant; the new cell points to the marker element 0, whose key is usize::MAX. `Dense/Wrapped.lean` continues: further new keys alias older elements.
* **C75** `CondType.lean` models the untyped slot; the theorems equate every operation with the plain operation on the value (`Plain`, `wrapped`, `chosen`).
* **C76** `Props/RepoTests.lean`: part 1 kernel-evaluates the literal tests of the repository on the model (validation of the model); part 2 transcribes the loops and proves them for every size, list of random indices, number of rounds and HashMap order, by the refinement theorems.
* **C77** model `Dense/MatE` = `Dense/Materialize` with the source's data_unchecked in `EM σ` (`materializeE_leaf`: without closures the two models agree). Proof: simulation (`SimE`) of materializeE by the pure materialize of an oracle tree whose values are the keys, combined with C42/C43 for the oracle.
* **C78** Small/Own.lean models small_block.rs with the boxed arrays on a heap, including `Clone`, `Drop` and the drop of the old value when the union is assigned; a simulation (`Corr`, with a frame condition) relates it to the value model of C59, and Props/BlockOwn.lean has the heap-free specification, the ownership invariant and the induction over programs.
* **C79** Sources.lean wraps a multi-operation so that the k-th clone of the iterator is `src k` for an arbitrary `src`; the contract is transported along a cursor invariant (number of cursors = number of trees of clone 0); failure by computing the first select for an arbitrary proper prefix.
* **C80** matTrace runs materialize on a recording cursor (erasure proved for every implementation of the traits); the call list is computed by induction over the levels; allocations by the invariant that every address handed out is live and has popcount+1 cells; counting by bijection between addresses and live paths.
* **C81** `Verif/Builds/Model.lean`, `Mat.lean`: the same code parametrised by a build (`checks`, `bmi2`): without checks, arithmetic wraps, shift amounts are taken mod 64 and `debug_assert!` does nothing; with `bmi2`, `get_dense_index` uses `_bzhi_u64`. `Builds/Le.lean`, `Trees.lean`: wherever the base model (checks on, no bmi2) succeeds, every build succeeds with the same result (`Le`, `ImplLe`); the contract `Lawful` is preserved by `ImplLe`. Memory safety (C14, C22) is proved again for each build, since there the base model may panic.
* **C82** Trees with wrong answers: `Nub` (no undefined behaviour) and a contract `Sturdy` much weaker than `Lawful`, kept by the combinators (Wrong, WrongOps, WrongMulti); `Mixed` is the language of expressions; induction. Cursors are state machines, so answers may depend on the call history; interior mutability of the tree value itself is not modelled. `materialize` (Dense/MatRec, MatRec2): the answers given during the traversal are recorded, the recording is a lawful source, and the run is the run on the recording, so the theorems for lawful sources apply (Props/MatAgain). False for `union` (finding 24), hence partial.
* **C83** Withdrawing the exactness claim of a tree (`{ I with exact := false }`) leaves every method as it is, so the contract theorems for inexact trees apply to reads (`Loose` induction); `materialize_any` (Dense/MatAny) redoes the from_exact_hierarchy proof for sources whose claim is false, giving a represented tree with empty nodes allowed. The two bugs behind it are findings 4 and 14 (C40, C48): this property is what remains true.
* **C84** the iterator's invariant holds of arbitrary answers (Wrong.lean): the indices still reachable form a sublist of the initial range, and a weighted count of the remaining bits decreases with each round. The contract `Nub tm` excludes unbounded runs when `tm`, so that termination passes through every combinator and through materialization.
* **C85** `Builds/Wrong.lean`: for a `Sturdy` source (no consistency of answers) the checked operations of `level_indices`, `data_block_index`, `block_start`, the key sums, `capacity + 1`, `len + 1` and the `debug_assert!` of `raw_finalize` all succeed, so that the code of every build equals that of the checked one; invariants of the loops from C82/C84. `Props/WrongBuilds.lean` states C85.
* **C86** `Threads/Prog.lean` defines programs of single accesses to a shared byte memory and shows that a program that is right alone, in a memory of nothing but its own blocks and with every allocator, needs only its own blocks (`Safe`). `Threads/Model.lean` writes node.rs and dense_tree.rs in that form; `Threads/Refine.lean` proves that run alone they compute the functions of `Bytes/Model.lean`; `Threads/Local.lean` proves that accesses to own blocks succeed and change nothing else in any larger memory, and counts accesses. `Props/Threads.lean`: reachable states of all schedules, separation invariant (each variable owns its blocks, busy ones are `Safe` with their own and the borrowed blocks), data races at byte granularity. Readers: `Threads/Read.lean` (cursors, `get`, iteration, map, union, intersection: in every memory that contains the blocks of the trees they find what the functions of the byte model are), `Threads/Multi.lean` (multi-way combinators), `Threads/At.lean` (programs that only load are, in a given memory, a lawful tree) and `Threads/Mat.lean` (from.rs); `Threads/Frozen.lean` runs a program so that it fails when it changes a borrowed block. `Threads/Panic.lean` adds `get_or_insert` with a panicking `T::default()`; an out-of-range index makes no access at all.
* **C87** `Borrows.lean` puts the sequence of answers of `borrow()` (one per cursor call) between an operation and its operand (`fromBorrows`). `C87_always_partial`: if all answers are one tree the operand is a tree with its content (`Built`). `C87_get_partial`: `get` borrows once. The full property is false: `C87_fails`, over the byte memory with two live trees.
* **C88** `Alias/Model`, `Alias/Read` and `Alias/Mat` write the functions of node.rs, dense_tree.rs and from.rs once more with every reference they make into a node: each place (mask, capacity, len, each child, the field `root`) has a stack of borrows; making a `&`/`&mut` pushes one after an access through its parent, an access pops what it invalidates, and an access through a borrow that is gone is `Err.ub`. Proof: whatever is on the stacks, each function succeeds when the cell model's does and leaves the same nodes (`Alias/Lemmas`, `Alias/Nodes`, `Alias/Tree`), because every chain of references starts at the node's own pointer and the `&mut NodePtr` kept across `insert` (dense_tree.rs:128-153) points into the parent, not into the node changed meanwhile (`Apart`, from the tree invariant). References passed to the methods of `NodeHeader` and to `set_bit_unchecked` are protected (`leave`). `C88_readers_keep` (`Alias/Keep`): lookups and cursor calls remove no shared borrow from any stack, so a reader in the middle of a call is not disturbed by another. `C88_rejects` shows seven wrong variants of the code that the model calls undefined.
* **C89** `SAlias/Model` writes the functions of sparse_tree.rs, sparse_tree_levels.rs and level/*.rs once more with every reference they make: the level tuple lies inside the tree (and the root block inside the tuple), the other blocks in buffers of their own; each place has a stack of borrows, as in C88. Raw block pointers carry the tag of the reference they come from. Reference arguments are protected: at the end of each call its borrow must still be on the stacks (`leave`). Proof: simulation against `Typed/Model` – whatever is on the stacks, `&mut self` clears what lies inside the tree and each chain of borrows below it is live when it is used (`Ch`, `Own`, `Valid` in `SAlias/Lemmas`, `SAlias/Ops`, `SAlias/Change`); while the tree is lent only shared borrows are added, so the pointers of all cursors stay on the stacks (`Live` in `SAlias/Run`). Then C72, C19–C21 give the results. `C89_readers_keep`: uses of a lent tree remove no shared borrow. `C89_rejects` shows six wrong variants the model calls undefined, among them the one the comment in `get_or_insert_impl` avoids (the block pointer made before `visit_mut`).
* **C90** `MAlias/Model` writes the functions of _multi_union.rs's cursor once more with every reference to its two fields (the list of source cursors, the slice of per-level lists) under Stacked Borrows. `MAlias/Select.select_sim` and `MAlias/Iterate.iterRun_sim` simulate it by the model without borrows (C34) up to undefined behaviour at level 2 and deeper; C34's theorem about iteration then gives `C90_fails` for all trees, and `C90_iff` the exact condition for exact sources. `C90_cursor` (with `MAlias/Cursor.select_quiet`: without a push there is no violation) says for every legal history of selects when it has a violation; `MAlias/Mat` simulates `materialize`. `C90_repaired` (`MAlias/Repair`) shows the fault is that one `&`: with the previous list borrowed alone every selection is free of violations. Partial because the property is false at depth 3 and more (finding 27). Sources are any implementation of the traits; borrows inside the source cursors are not followed (C88, C89 do that for the containers).

## Findings (places where code and property disagree)

1. `DenseTree<T,1>::remove` evaluates `unwrap_unchecked` on the last element of an empty array (C18).
2. `NodePtr::from_parts` sets `len` without the sentinel (C43).
3. `from_sparse_hierarchy` of an empty result: `None.unwrap_unchecked()` (C43).
4. `from_sparse_hierarchy` keeps empty terminal nodes, so `EXACT_HIERARCHY = true` is untrue (C40, C43).
5. width-256 `SparseTree`: `u8`/`u16` child index wraps to 0, key lost (C25). `C25_fails_any_level` shows the same at every level of every configuration as soon as the index type of that level is exhausted; afterwards `key_values` lists the key while `get` does not find it.
6. `index_range` wraps for width 256 depth 8 (C03).
7. `ArrayBitQueue::current` at an exhausted word (C08).
8. `MultiUnion` cursor `data` returns an empty iterator instead of `None` (C39); depth 1 is `todo!()`.
9. `multi_intersection` of no trees: `get` is always `Some`, `iter` is empty (C37).
10. more than 32 trees panic (C38).
11. `MultiIntersection::select_level_node_unchecked` does not update the terminal mask (only
    harmful when mixed with checked `data`).
12. `const_for` / `const_for_rev` wrong for lower bounds ≥ 2 / ≥ 1 (C44).
13. `ClusterBlock::get_or_insert` tests the bit it has just masked off, so it overwrites existing items and never shifts the ones above (C66; private, unused).
14. `get_or_insert` whose `Default` panics leaves empty nodes/blocks behind, so `EXACT_HIERARCHY = true`
    becomes untrue (C48); nothing else is affected (C47).
15. DenseTree stores data indices as `u32`: with 2^32 elements they are truncated (bound in C11; the
    exact condition and the consequences are C74).
16. `materialize` and `SparseTree::default()` run caller code while holding a `Vec` of length 1 whose
    element is uninitialised; unwinding drops it (C49).
17. `SmallBlock` (private, unused): `remove_unchecked` for widths 128/256 reads one element past a full
    small array when the removed bit is not in the last word; `HiBlock::insert` is `todo!()`.
18. Dropping a `DenseTree` or `SparseTree` that holds exactly one value with a panicking destructor is
    undefined behaviour: `drop_impl` calls `drop_in_place` before `set_len(0)`, so unwinding drops the
    `Vec` field again, including the never initialised element 0 (C55).
19. `multi_intersection`'s `DataUnchecked` implements `ExactSizeIterator` for every source iterator but
    forwards its `size_hint`: with e.g. a `filter` source, `len()` panics (C56).
20. `ConstInteger::sat_dec` returns `Self::Dec` instead of `Self::SatDec`: `ConstUsize::<0>.sat_dec()` panics
    instead of staying at 0 (C64). The crate itself does not call it.
21. No result of `alloc` or `realloc` is checked (node.rs:195, 218, 242, 309): when the allocator returns
    null, `default`, `insert` and `get_or_insert` write through the null pointer - undefined behaviour
    instead of `handle_alloc_error` (C71).
22. `get` (and the cursor's checked `data`) on `intersection` / `multi_intersection` run the closures of mapped
    sources on keys that are not in the result (C62, `C62_inter_fails`); iteration does not.
23. `multi_intersection`'s cursor clones the source iterator again at every step and calls `unwrap_unchecked` on its
    items: an iterator whose safe `Clone` later yields fewer (or other) trees is undefined behaviour (C79).
24. `HibitTree` / `HibitTreeCursor` are safe traits, but `Union`'s cursor calls `self.data(..).unwrap_unchecked()`
    (union.rs:157-161): a safe user-written tree whose mask announces an index for which its cursor's `data` is
    `None` makes iterating a union with it undefined (C82, `C82_fails`). All other combinators tolerate any answers.
25. `get_dense_index` (node.rs:87-95) refers to `core::arch::x86_64::_bzhi_u64` under `if cfg!(..)`, which does not remove
    the reference: the crate compiles on x86_64 only (so the model's 64 bit, little endian target is the only one).
26. `map`, `union` and `intersection` call `borrow()` of their operands again for every cursor call and use the cursor of one
    answer with the tree of another. `Borrow`/`Borrowable` are safe traits, so a user type whose `borrow()` alternates between two
    trees makes `iter()` read outside the second tree's data (undefined behaviour from safe code; `C87_fails`).
27. `select_level_node_unchecked` of multi_union's cursor (_multi_union.rs:193-219), for levels 2 and deeper, makes a `&` to the
    whole slice of per-level lists (`lvls_non_empty_states.as_ref()`) while the closure holds a `&mut` to one of them, which the
    `&` invalidates; the closure's next `push_unchecked` is undefined behaviour under Stacked Borrows (Tree Borrows too: the read
    freezes the `&mut`). So iterating any non-empty multi_union of depth 3 or more is (`C90_fails`). Taking the previous level's
    list from a pointer to that element, or with `split_at_mut`, would avoid it.

## How the statements are tested

* `seeded/LOG.jsonl`: wrong programs (edits of model definitions) and the theorems that fail for each. An edit that no theorem noticed
  either led to a tighter theorem (named in the row) or leaves every claim true (the row says so).
* Reach: the transitive closure of the constants in the statements of the `C..` theorems of `Verif/Props` contains every definition
  that cites lines of `/repo`, except `Bytes.headerFields`, whose theorem `Bytes.header_offsets` derives the constants used by the
  properties. So no modelled function is there without a claim about it.
* The `*_rejects` theorems (C88, C89, C90) and the examples beside the theorems run wrong variants of the code through the model's own
  rules, so that a weakened rule is noticed too.
