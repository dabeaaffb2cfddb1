{"id": "C01", "title": "Index splits into per-level coordinates losslessly and order-preservingly", "statement": "For a tree of node width W in {64,128,256} and depth D, every user index i < W^D splits into exactly D coordinates, each < W, most significant first; recombining them (as iteration does to report keys) gives back i; every list of D coordinates < W is the split of exactly one index; and i < j iff the coordinates of i are lexicographically before those of j.", "quantifier": "all widths, all depths D>=1, all indices / all coordinate lists", "why_tests_cant": "The index space has up to 2^64 points and 8 depths x 3 widths; a test samples a few indices.", "anchors": ["src/lib.rs: level_indices, data_block_index"]}
{"id": "C02", "title": "Checked index construction accepts exactly the in-range indices", "statement": "Converting a usize into a tree index succeeds iff it is smaller than W^D computed with saturation at usize::MAX, and panics otherwise; a successful conversion does not change the value.", "quantifier": "all usize values, all (W, D)", "why_tests_cant": "Boundary depends on saturation of the power; cannot enumerate 2^64 indices.", "anchors": ["src/hibit_tree.rs: Index::from, Index::new_unchecked"]}
{"id": "C03", "title": "index_range is exactly the set of accepted indices", "statement": "HibitTree::index_range() is 0..W^D, i.e. a usize is inside the range iff Index::from accepts it.", "quantifier": "all (W, D) configurations and all usize", "why_tests_cant": "Only one configuration (width 256, depth 8) overflows; normal tests use small depths.", "anchors": ["src/hibit_tree.rs: HibitTree::index_range, Index::from"]}
{"id": "C04", "title": "Bit set/get on masks is a faithful boolean array", "statement": "set_bit::<b>(k) on a 64/128/256-bit mask returns the previous value of bit k, makes bit k equal b and leaves all other bits unchanged; get_bit(k) reads bit k.", "quantifier": "all mask contents, all bit positions below the width, both values of b", "why_tests_cant": "2^256 masks x 256 positions.", "anchors": ["src/bit_block.rs: BitBlock::set_bit, get_bit", "src/bit_utils.rs: set_array_bit_unchecked, set_bit_unchecked, get_array_bit_unchecked, get_bit_unchecked"]}
{"id": "C05", "title": "Mask traversal visits each set bit once, ascending, and stops when told", "statement": "traverse_bits calls its callback with exactly the positions of the one bits, strictly ascending, each once; if the callback breaks, nothing further is visited and Break is returned.", "quantifier": "all masks of all widths, all callbacks", "why_tests_cant": "2^256 masks and arbitrary callbacks.", "anchors": ["src/bit_block.rs: BitBlock::traverse_bits", "src/bit_utils.rs: traverse_array_one_bits, traverse_one_bits, OneBitsIter"]}
{"id": "C06", "title": "A bit iterator yields exactly the set bits in ascending order and then None forever", "statement": "For the iterator obtained from a mask, the k-th call of next() returns the k-th smallest set bit while one exists and None for every later call; an iterator created empty yields nothing.", "quantifier": "all masks of all widths, all numbers of calls", "why_tests_cant": "Unbounded call sequences over 2^256 masks; word-boundary transitions.", "anchors": ["src/bit_queue.rs: PrimitiveBitQueue, ArrayBitQueue", "src/bit_utils.rs: OneBitsIter::next"]}
{"id": "C07", "title": "Trimming a bit iterator drops exactly the bits below n", "statement": "After trim_to(n) a bit iterator in any state yields exactly those of its remaining bits that are >= n, in ascending order, and nothing else.", "quantifier": "all iterator states reachable from any mask by next/trim_to, all n", "why_tests_cant": "Stateful, word-boundary dependent; state space 2^256 x position.", "anchors": ["src/bit_queue.rs: trim_to, saturating_shl"]}
{"id": "C08", "title": "current() of a bit iterator is the next index", "statement": "current() returns the index next() would return, or the total bit count when the iterator is exhausted.", "quantifier": "all reachable iterator states", "why_tests_cant": "The failing states occur only at word boundaries of multi-word masks.", "anchors": ["src/bit_queue.rs: BitQueue::current"]}
{"id": "C09", "title": "Draining a bit iterator with traverse equals repeated next", "statement": "traverse(f) on a bit iterator in any reachable state (which consumes the iterator) feeds f exactly the bits that repeated next() would have returned, ascending, each once, stops at the first break and reports whether it broke.", "quantifier": "all reachable iterator states, all callbacks", "why_tests_cant": "State space and callback space are unbounded.", "anchors": ["src/bit_queue.rs: BitQueue::traverse"]}
{"id": "C10", "title": "Rank of a child slot is the number of smaller set bits on every CPU", "statement": "The dense slot of child k in a DenseTree node is the number of set mask bits below k, by both the bmi2 (bzhi) and the portable code path; the two paths agree for every k < 64.", "quantifier": "all 64-bit masks, all k < 64, both compile-time variants", "why_tests_cant": "2^64 masks; CI runs on a single CPU feature set.", "anchors": ["src/dense_tree/node.rs: NodeHeader::get_dense_index"]}
{"id": "C11", "title": "DenseTree behaves as a finite map under every history", "statement": "After any sequence of insert / get_or_insert / remove / get on a default-constructed DenseTree of depth >= 2, get(i) returns Some(v) iff the last effective write of key i stored v and i was not removed since; operations on one key never change what get returns for another.", "quantifier": "all histories of operations with in-range keys, all depths >= 2, fewer than 2^32 live elements", "why_tests_cant": "Histories are unbounded and involve swap-remove relocation of values of unrelated keys and node reallocation.", "anchors": ["src/dense_tree.rs: get_or_insert_impl, insert, get_or_insert, remove", "src/hibit_tree.rs: HibitTree::get"]}
{"id": "C12", "title": "DenseTree insert / get_or_insert / remove return the documented value", "statement": "insert(k,v) makes get(k)=Some(v); get_or_insert(k,f) returns the stored value if present without calling f, else f() and stores it; remove(k) returns the stored value if present and None otherwise, and a second remove(k) returns None.", "quantifier": "all reachable states, all keys and values", "why_tests_cant": "Depends on all previous history.", "anchors": ["src/dense_tree.rs: insert, get_or_insert, remove"]}
{"id": "C13", "title": "DenseTree key_values lists the content exactly", "statement": "key_values() returns two equally long slices pairing every present key exactly once with its current value and contains no absent key.", "quantifier": "all histories", "why_tests_cant": "swap_remove in remove permutes storage; every history must keep keys and values aligned.", "anchors": ["src/dense_tree.rs: key_values, remove"]}
{"id": "C14", "title": "DenseTree operations are memory safe", "statement": "No history of public operations on a DenseTree of depth >= 2 dereferences a freed or never-allocated node, reads an uninitialised cell, writes outside a node's capacity, writes to or frees the shared static empty nodes, or indexes the value array out of range.", "quantifier": "all histories, all in-range keys, depths >= 2", "why_tests_cant": "UB need not be visible in a test; address reuse hides it; unbounded histories.", "anchors": ["src/dense_tree/node.rs: NodePtr::insert, remove, get_child", "src/dense_tree.rs: get_or_insert_impl, get_branch, remove, Cursor"]}
{"id": "C15", "title": "DenseTree keeps an exact hierarchy", "statement": "After any history on a DenseTree of depth >= 2, every node reachable from the root (other than the root) has at least one child, so a set bit at any level means at least one stored key lies below it; thus the declared EXACT_HIERARCHY = true holds.", "quantifier": "all histories", "why_tests_cant": "Removal must prune exactly the nodes that become empty, for every history.", "anchors": ["src/dense_tree.rs: remove, HibitTree::EXACT_HIERARCHY", "src/dense_tree/node.rs: NodePtr::remove"]}
{"id": "C16", "title": "DenseTree node capacity and length counters never overflow", "statement": "In every reachable state each node's u8 length counter equals the number of children plus the sentinel, never exceeds its capacity, and the capacity computed by doubling fits in u8, so no arithmetic overflow or truncated allocation can occur.", "quantifier": "all histories", "why_tests_cant": "Requires a 64-child node reached through every possible insert/remove pattern.", "anchors": ["src/dense_tree/node.rs: NodeHeader, NodePtr::insert, NodePtr::remove"]}
{"id": "C17", "title": "Dropping a DenseTree frees every node once and drops every value once", "statement": "Dropping a DenseTree after any history frees every still-allocated node exactly once (none leaked, none freed twice, none with a wrong layout, static empty nodes untouched), and drops each stored value exactly once and the uninitialised placeholder never.", "quantifier": "all histories, depths >= 2", "why_tests_cant": "Leaks and double frees are invisible to ordinary tests.", "anchors": ["src/dense_tree.rs: drop_impl, remove", "src/dense_tree/node.rs: drop_node, drop_node_with_childs"]}
{"id": "C18", "title": "DenseTree of depth 1 supports remove", "statement": "remove on a DenseTree with DEPTH = 1 removes the key and returns its value like for deeper trees.", "quantifier": "all depth-1 trees and keys", "why_tests_cant": "The defect is undefined behaviour, which tests may not observe.", "anchors": ["src/dense_tree.rs: remove"]}
{"id": "C19", "title": "SparseTree behaves as a finite map under every history", "statement": "After any sequence of insert / get_or_insert / get_or_default / remove / get_mut writes on a default-constructed SparseTree, get(i) returns Some(v) iff the last write of key i stored v and i was not removed since; operations on one key never change what get returns for another (for configurations and histories where no child-index type is exhausted).", "quantifier": "all histories, all widths and depths whose index types cannot be exhausted", "why_tests_cant": "Unbounded histories with block reuse through free lists.", "anchors": ["src/sparse_tree.rs: get_or_insert_impl, insert, remove, get_mut, get_or_default", "src/hibit_tree.rs: HibitTree::get"]}
{"id": "C20", "title": "SparseTree operations return the documented value", "statement": "insert(k,v) makes get(k)=Some(v); get_or_insert(k) gives the present value without calling Default::default or stores a default; get_or_default(k) reads the stored value or the tree's default and changes nothing; get_mut(k) reaches the value that get(k) shows and is None when absent; remove(k) returns the stored value or None and a repeated remove returns None.", "quantifier": "all reachable states, keys, values", "why_tests_cant": "Depends on arbitrary histories.", "anchors": ["src/sparse_tree.rs: insert, get_or_insert, get_or_default, get_mut, remove"]}
{"id": "C21", "title": "SparseTree key_values lists the content exactly", "statement": "key_values() pairs every present key exactly once with its current value and lists no absent key; key_values_mut exposes the same pairs.", "quantifier": "all histories", "why_tests_cant": "swap_remove relocation across unbounded histories.", "anchors": ["src/sparse_tree.rs: key_values, key_values_mut, remove"]}
{"id": "C22", "title": "SparseTree never indexes outside its storage", "statement": "No history of public operations (without exhausting a child-index type) makes an unchecked access outside a level's block vector or the value vector, uses a freed block, reads the uninitialised placeholder value, or hits the 'unreachable' insert/remove of the single root level.", "quantifier": "all histories", "why_tests_cant": "Unchecked accesses are UB; not observable in tests; unbounded histories.", "anchors": ["src/sparse_tree.rs: all get_unchecked uses", "src/level/intrusive_list_level.rs", "src/level/single_block_level.rs"]}
{"id": "C23", "title": "SparseTree keeps an exact hierarchy", "statement": "After any history every non-root block reachable from the root is non-empty: a set bit at any level means a stored key lies below; removal prunes every block that becomes empty.", "quantifier": "all histories", "why_tests_cant": "All removal orders.", "anchors": ["src/sparse_tree.rs: remove, HibitTree::EXACT_HIERARCHY"]}
{"id": "C24", "title": "SparseTree reuses freed blocks and its storage stays bounded", "statement": "Each level's block storage is partitioned into the shared empty block, blocks in use by exactly one parent slot, and free blocks; a block is allocated anew only when no free block exists; so after any history the number of blocks at a level never exceeds 1 + the maximal number of simultaneously live nodes at that level.", "quantifier": "all histories", "why_tests_cant": "Free-list corruption shows only under particular remove/insert interleavings.", "anchors": ["src/level/intrusive_list_level.rs: insert_empty_block, remove_empty_block_unchecked", "src/sparse_tree.rs: remove"]}
{"id": "C25", "title": "SparseTree child-index types are wide enough", "statement": "In no configuration offered by the crate does storing more elements make a child index exceed its integer type, so no inserted key is silently lost.", "quantifier": "all shipped configurations (width x depth), all histories", "why_tests_cant": "Needs 256 full root slots or 65536 blocks; ordinary tests stay below.", "anchors": ["src/config.rs", "src/utils/primitive.rs: from_usize", "src/sparse_tree.rs: insert_child"]}
{"id": "C26", "title": "Dropping a SparseTree drops every stored value exactly once", "statement": "After any history, drop runs the destructor of every stored value exactly once and never of the uninitialised placeholder; together with remove/insert every value given to the tree is either still stored, was returned by remove, or was dropped exactly once on overwrite.", "quantifier": "all histories", "why_tests_cant": "Double drops / leaks not observable with plain types.", "anchors": ["src/sparse_tree.rs: drop_impl, insert, remove"]}
{"id": "C27", "title": "Iteration yields exactly the content in ascending index order", "statement": "For every tree value (container or lazily composed), iter() yields each index whose get is Some exactly once, in strictly ascending order, with the same value get returns, and nothing else.", "quantifier": "all trees satisfying the hierarchical cursor contract, proved for every container and combinator of the crate; all depths and widths", "why_tests_cant": "Unbounded trees and compositions; level-crossing transitions.", "anchors": ["src/iter.rs: Iter::new, LendingIterator::next"]}
{"id": "C28", "title": "Iteration terminates and is fused", "statement": "Every call of next() terminates; after the last element every further call returns None.", "quantifier": "all trees, all number of calls", "why_tests_cant": "Non-termination and re-start are unbounded properties; lazily composed trees may have long runs of empty blocks.", "anchors": ["src/iter.rs: LendingIterator::next"]}
{"id": "C29", "title": "Unchecked access agrees with checked access", "statement": "Wherever get(i) is Some(v), get_unchecked(i) returns the same v without leaving allocated memory; for all containers and combinators.", "quantifier": "all trees, all present indices", "why_tests_cant": "Two separately written code paths must agree in every state.", "anchors": ["src/hibit_tree.rs: get_unchecked", "src/dense_tree.rs: data_unchecked", "src/sparse_tree.rs: data_unchecked", "src/ops/*.rs: data_unchecked"]}
{"id": "C30", "title": "A cursor may be re-positioned at will", "statement": "After any previous sequence of legal select operations, selecting level n under the current path and then reading data or masks gives the same result as on a fresh cursor positioned along the same path; selecting an absent node yields an empty mask, and everything below it is empty too.", "quantifier": "all trees, all legal cursor histories", "why_tests_cant": "Cursor state carries stale lower levels; arbitrary histories.", "anchors": ["src/hibit_tree.rs: HibitTreeCursor", "src/dense_tree.rs: Cursor", "src/sparse_tree.rs: Cursor", "src/ops/*.rs: Cursor"]}
{"id": "C31", "title": "union: get and iter are the set union with paired values", "statement": "union(a,b).get(i) is None iff both are None, else Some((a.get(i), b.get(i))); its iteration yields exactly the union of the keys in ascending order with those pairs.", "quantifier": "all lawful a, b of equal depth/width", "why_tests_cant": "All pairs of trees.", "anchors": ["src/ops/union.rs"]}
{"id": "C32", "title": "intersection: get and iter are the set intersection with paired values", "statement": "intersection(a,b).get(i) is Some((x,y)) iff a.get(i)=Some(x) and b.get(i)=Some(y); iteration yields exactly those keys ascending.", "quantifier": "all lawful a, b", "why_tests_cant": "All pairs of trees, including trees sharing branches but no keys (non-exact hierarchy).", "anchors": ["src/ops/intersection.rs"]}
{"id": "C33", "title": "map: get and iter apply the function pointwise", "statement": "map(a,f).get(i) = a.get(i).map(f) and iteration yields the same keys as a, with f applied to each value.", "quantifier": "all lawful a, all pure f", "why_tests_cant": "All trees and functions.", "anchors": ["src/ops/map.rs"]}
{"id": "C34", "title": "multi_union: get and iter collect every present value in source order", "statement": "For a non-empty list of at most 32 trees, multi_union(ts).get(i) is None iff no tree has i, else an iterator over the values of those trees that have i, in source order; iteration visits exactly the union of keys ascending.", "quantifier": "all lists of 1..32 lawful trees of depth >= 2", "why_tests_cant": "All lists of trees; incremental per-level state must stay consistent along iteration.", "anchors": ["src/ops/_multi_union.rs"]}
{"id": "C35", "title": "multi_intersection: get and iter require presence in all trees", "statement": "For a non-empty list of at most 32 trees, multi_intersection(ts).get(i) is Some iff every tree has i, with values in source order; iteration visits exactly those keys ascending.", "quantifier": "all lists of 1..32 lawful trees", "why_tests_cant": "All lists of trees.", "anchors": ["src/ops/_multi_intersection.rs"]}
{"id": "C36", "title": "multi_map_fold: value is the left fold over the collected values", "statement": "multi_map_fold(init, m, f).get(i) is m.get(i) folded with f from init in source order, None exactly where m.get(i) is None; iteration agrees.", "quantifier": "all lawful multi-trees, all init and pure f", "why_tests_cant": "All trees and functions.", "anchors": ["src/ops/multi_map_fold.rs"]}
{"id": "C37", "title": "multi_* with no trees is the empty tree", "statement": "multi_union and multi_intersection over an empty list behave as the empty tree for both get and iter.", "quantifier": "all indices", "why_tests_cant": "A corner case whose get and iter answers can diverge for every index.", "anchors": ["src/ops/_multi_union.rs: data", "src/ops/_multi_intersection.rs: data, cursor"]}
{"id": "C38", "title": "multi_* support any number of trees", "statement": "multi_union / multi_intersection accept any number of trees for get and iter.", "quantifier": "all list lengths", "why_tests_cant": "Hard-coded capacity shows only beyond 32 sources.", "anchors": ["src/ops/_multi_union.rs: const N", "src/ops/_multi_intersection.rs: const N"]}
{"id": "C39", "title": "Checked cursor data is None for absent indices", "statement": "A tree cursor positioned (with checked selects) at the terminal node of a path returns from data(k) the same answer as get at that index, for every container and combinator, so lazy trees nest freely.", "quantifier": "all trees, all paths and positions", "why_tests_cant": "Only visible when combinators are nested through a checked parent at an index absent in the child.", "anchors": ["src/hibit_tree.rs: HibitTreeCursor::data", "src/ops/_multi_union.rs: Cursor::data", "src/ops/multi_map_fold.rs"]}
{"id": "C40", "title": "EXACT_HIERARCHY is truthful", "statement": "If a tree type reports EXACT_HIERARCHY = true then in every value of it every set bit of every non-terminal mask leads to at least one present index.", "quantifier": "all containers and combinators, all states", "why_tests_cant": "Must hold through every history and composition, and materialize relies on it.", "anchors": ["src/hibit_tree.rs: EXACT_HIERARCHY", "src/ops/*.rs: EXACT_HIERARCHY", "src/dense_tree/from.rs"]}
{"id": "C41", "title": "Compositions of combinators are again lawful trees", "statement": "Any expression built from containers with union, intersection, map (and folds over multi-intersections) has get equal to the pointwise semantics of the expression, and its iteration is exactly that content in ascending order.", "quantifier": "all finite expressions", "why_tests_cant": "Infinitely many expressions.", "anchors": ["src/ops/*.rs"]}
{"id": "C42", "title": "Materializing an exact tree gives an equal DenseTree", "statement": "Collecting a lazy tree with exact hierarchy into a DenseTree gives a tree with the same get for every index, the same iteration, and which afterwards behaves as a map under every further history.", "quantifier": "all lawful exact source trees", "why_tests_cant": "All source trees and later histories.", "anchors": ["src/dense_tree/from.rs: from_exact_sparse_hierarchy", "src/hibit_tree.rs: LazyHibitTree::materialize"]}
{"id": "C43", "title": "Materializing a non-exact tree gives an equal, fully usable DenseTree", "statement": "Collecting a lazy tree without exact hierarchy (e.g. an intersection) into a DenseTree gives a tree with the same get for every index, exact hierarchy, and which afterwards behaves as a map under every further history; an empty result gives an empty tree.", "quantifier": "all lawful source trees, all later histories", "why_tests_cant": "Defects appear only after later inserts/removes, as memory corruption.", "anchors": ["src/dense_tree/from.rs: from_sparse_hierarchy", "src/dense_tree/node.rs: from_parts"]}
{"id": "C44", "title": "Compile-time loops visit exactly their range", "statement": "The compile-time loop helpers visit exactly their range: const_loop!(i in a..b) (and its reversed form) and const_for(from,to) ascending, const_for_rev descending, each integer exactly once, stopping on break.", "quantifier": "all from <= to <= 9 supported, all bodies", "why_tests_cant": "Recursion through types; wrong only for nonzero lower bounds.", "anchors": ["src/const_utils/const_int.rs"]}
{"id": "C45", "title": "New trees are empty", "statement": "A default-constructed DenseTree or SparseTree of any depth and width answers None for every index, iterates nothing, and performs no invalid access doing so.", "quantifier": "all configurations, all in-range indices", "why_tests_cant": "All indices; the static empty branch is shared by all depths.", "anchors": ["src/dense_tree.rs: Default", "src/dense_tree/node.rs: EMPTY_BRANCH", "src/sparse_tree.rs: Default"]}
{"id": "C46", "title": "Out-of-range keys are rejected before any change", "statement": "Every public operation taking an index panics on an out-of-range index before modifying the container.", "quantifier": "all operations, all usize keys", "why_tests_cant": "2^64 keys.", "anchors": ["src/hibit_tree.rs: Index::from", "src/dense_tree.rs, src/sparse_tree.rs: impl Into<Index>"]}
{"id": "C47", "title": "A panicking Default leaves the content intact", "statement": "If get_or_insert unwinds because the value type's Default panics and the caller catches the panic, the container's content is unchanged, and every later operation, get, iteration, cursor traversal, key_values and the final drop behave exactly as if the call had never been made, without undefined behaviour.", "quantifier": "all histories mixing operations and panicking calls at any crash point, both containers", "why_tests_cant": "Every crash point of every history.", "anchors": ["src/dense_tree.rs: get_or_insert_impl", "src/sparse_tree.rs: get_or_insert_impl"]}
{"id": "C48", "title": "EXACT_HIERARCHY survives a panicking Default", "statement": "DenseTree and SparseTree declare EXACT_HIERARCHY; this remains true after a get_or_insert that unwound from the value type's Default.", "quantifier": "all histories with panicking calls", "why_tests_cant": "Every crash point of every history.", "anchors": ["src/dense_tree.rs: get_or_insert_impl, EXACT_HIERARCHY", "src/sparse_tree.rs: get_or_insert_impl, EXACT_HIERARCHY"]}
{"id": "C49", "title": "Unwinding out of construction is safe", "statement": "If the caller's code (a map closure, Default) panics during materialize or SparseTree::default(), unwinding drops exactly the values produced so far.", "quantifier": "all sources, all crash points", "why_tests_cant": "Every crash point.", "anchors": ["src/dense_tree/from.rs: from_sparse_hierarchy", "src/sparse_tree.rs: Default", "src/req_default.rs"]}
{"id": "C50", "title": "What an exact tree shows depends only on its content", "statement": "Two trees with EXACT_HIERARCHY of the same width and depth (DenseTree, SparseTree, exact adapters) holding the same index->value map cannot be told apart through the HibitTree interface: get agrees for every usize, iteration yields the same sequence, and every legal sequence of cursor selects returns the same masks, whatever operations, in whatever order, produced them.", "quantifier": "all pairs of trees, all histories producing them, all select sequences", "why_tests_cant": "Pairs of unbounded histories and all cursor walks.", "anchors": ["src/hibit_tree.rs: HibitTree, EXACT_HIERARCHY", "src/dense_tree.rs", "src/sparse_tree.rs", "src/iter.rs"]}
{"id": "C51", "title": "Order of key_values()", "statement": "key_values() lists the entries in a definite order determined by the operations: an insert of a new key appends it, writing a present key (insert, get_or_insert, get_mut, key_values_mut) keeps its position, remove moves the last entry into the freed position; get never reorders. Dropping the container destroys the values in this order (a SparseTree with a default value destroys that first).", "quantifier": "all histories of both containers", "why_tests_cant": "Unbounded histories.", "anchors": ["src/dense_tree.rs: get_or_insert_impl, remove, key_values", "src/sparse_tree.rs: get_or_insert_impl, remove, key_values, get_mut"]}
{"id": "C52", "title": "The documented use cases", "statement": "Whatever histories filled the containers: summing iter() of intersection(a,b).map(|(x,y)| x*y) is the dot product (absent = 0), for DenseTree, SparseTree and mixed pairs; a loop over intersection(a,b).map(f) sees exactly (k, f(a[k],b[k])) for the common keys ascending; a loop over multi_intersection of 1..32 trees sees exactly the common keys with the values in tree order; a width-64 SparseTree converts to a DenseTree with the same content; materializing union(dense, sparse).map(f) holds f of the optional values at the keys of either.", "quantifier": "all histories, values, closures", "why_tests_cant": "Unbounded histories and all pairs of trees.", "anchors": ["README.md", "examples/readme_sparse_vec_dot.rs", "examples/readme_multi_type_example.rs", "examples/readme_store_example.rs", "examples/sparse_vector.rs"]}
{"id": "C53", "title": "DenseTree frees what it no longer needs: allocated nodes are determined by the stored keys", "statement": "After any supported history of insert/get_or_insert/remove/value mutation on a DenseTree, the heap blocks owned by the tree are exactly the root plus, for every level below, one node per aligned key range (64^j keys) that currently holds a stored key; each node has at most 128 slots and the value and key arrays hold one slot per stored element plus the sentinel. In particular removing every key leaves only the root allocated, whatever the history was.", "quantifier": "every depth, every history of in-range operations, every reached tree", "why_tests_cant": "The set of allocated blocks depends on the whole history; a leak or a premature free on a rare removal order is not observable through get/iter and needs an invariant over all histories.", "anchors": ["src/dense_tree.rs: DenseTree::remove, get_or_insert_impl", "src/dense_tree/node.rs: Node::new, insert, remove, drop_node"]}
{"id": "C54", "title": "Bit queues work for every primitive type and array length", "statement": "For every unsigned primitive P (u8..u64/usize) and array length N >= 1, a queue built by new/empty/filled and driven by any sequence of next and trim_to calls never panics or reads out of bounds, yields the one bits of its source in ascending order (bit j of word i at position bits(P)*i + j), then None for ever; trim_to(n) removes exactly the bits below n (n arbitrary, also beyond the width); traverse, for_each and fold then see exactly the remaining bits, in order, stopping at the first Break. EmptyBitQueue never yields.", "quantifier": "every element size, every array length, every content, every sequence of calls, every (stateful) callback", "why_tests_cant": "The state space is contents x call sequences x word types; the active-word copy in slot 0 makes the state history-dependent.", "anchors": ["src/bit_queue.rs: PrimitiveBitQueue, ArrayBitQueue, EmptyBitQueue, trim_to, traverse, for_each", "src/bit_utils.rs: OneBitsIter, traverse_one_bits, traverse_array_one_bits, fold"]}
{"id": "C55", "title": "Panicking value destructors are contained", "statement": "If a stored value's destructor panics, no value is destroyed twice and no uninitialised memory is touched: an insert that overwrites such a value leaves the tree holding the new value, and dropping a tree holding such values destroys every stored value at most once (the unwinding may become an abort when several destructors panic).", "quantifier": "every supported history of DenseTree or SparseTree (any width and depth, with or without a default value), every set of values whose destructor panics, every key and value inserted", "why_tests_cant": "It depends on the whole content and on where the unwinding starts; a double drop usually goes unnoticed in a test.", "anchors": ["src/dense_tree.rs: DenseTree::drop_impl, Drop for DenseTree, insert, get_or_insert_impl", "src/sparse_tree.rs: SparseTree::drop_impl, Drop for SparseTree, insert, get_or_insert_impl"]}
{"id": "C56", "title": "The value iterators of multi_* are well-behaved iterators", "statement": "The iterator of values that multi_union / multi_intersection hand out (from get_unchecked, from cursors and as items of iter()) yields the values of the sources in source order and then None for ever; at any moment its size_hint bounds what is left (exactly so where it is an ExactSizeIterator) and its fold consumes exactly what is left, so that internal iteration and multi_map_fold give the same as repeated next.", "quantifier": "every list of trees, every index, every number of next calls before the fold or size_hint, every (also failing) closure, every size_hint of the source iterator that satisfies the Iterator contract", "why_tests_cant": "next, fold and size_hint are separately written code whose agreement must hold after every partial consumption and for every pattern of present and absent sources.", "anchors": ["src/ops/_multi_union.rs: DataUnchecked, CursorData (next, fold, size_hint)", "src/ops/_multi_intersection.rs: DataUnchecked, CursorData (next, fold, size_hint), ExactSizeIterator", "src/ops/multi_map_fold.rs: MultiMapFold, Cursor"]}
{"id": "C57", "title": "Iteration over an exact tree selects only the nodes it needs", "statement": "Iterating a tree expression with EXACT_HIERARCHY: iter() selects the root and nothing else; each next() that returns an element makes exactly one select_level_node_unchecked call for each level below the deepest node shared with the previously returned element (so never more than depth-1, and none while the elements are in the same terminal node), whatever the gap between the keys; a next() that returns None makes none. The search loop inside next() goes round at most depth times.", "quantifier": "every tree expression with exact hierarchy (containers after any history, materialized trees, nested combinators), every number of next calls", "why_tests_cant": "It is a statement about the work done per call for every content and every nesting; a superfluous or repeated select changes no result and no test would notice.", "anchors": ["src/iter.rs: Iter::new, Iter::next", "src/hibit_tree.rs: HibitTreeCursor::select_level_node_unchecked, EXACT_HIERARCHY"]}
{"id": "C58", "title": "Iteration visits nodes depth first, each at most once, and intersections skip", "statement": "For every tree expression, exact or not, iteration selects only nodes that are marked in their parent's mask, each at most once and in strictly ascending depth-first order, and after the end all of them; for exact hierarchies these are exactly the nodes under which an element is stored. Iterating intersection(a, b) of exact trees visits a node below the root only if both a and b store something under it.", "quantifier": "every tree expression, every number of next calls", "why_tests_cant": "The visited nodes are not observable in results; the claim ranges over every content and nesting.", "anchors": ["src/iter.rs: Iter::new, Iter::next", "src/ops/intersection.rs: Cursor::select_level_node_unchecked", "README.md: intersection skips subtrees"]}
{"id": "C59", "title": "A compact level block behaves exactly like a full-size one", "statement": "For every mask width and inline capacity below 256, and for every sequence of get_or_zero, get_or_insert, remove_unchecked and set_unchecked calls that respects the documented preconditions, a SmallBlock that started empty returns the same items and flags, has the same mask and the same emptiness after every call as a table from positions to items - and so as a full-size Block - whether its items are still inline or have moved to the boxed array; no call reads or writes outside the inline array.", "quantifier": "every number of mask words N > 0, every inline capacity < 256, every legal sequence of block operations of any length", "why_tests_cant": "the positions of items in the inline array depend on the ranks of all mask words and on the whole history; the memory error needs a particular fill level and word", "anchors": ["src/level_block/small_block.rs: SmallBlock::{small_array_index_impl,small_array_len,insert_unchecked,get_or_zero,get_or_insert,remove_unchecked,set_unchecked}", "src/level_block/block.rs: Block", "src/level_block/mod.rs: HiBlock"]}
{"id": "C60", "title": "Set algebra of tree expressions", "statement": "Lazy set operations obey the laws of sets and pairs: union and intersection are commutative, associative and idempotent, they absorb and distribute over each other, map respects identity and composition, multi_union / multi_intersection of one or two trees are the tree itself / union / intersection with the data as a list, the keys of a multi-tree depend neither on the order of its sources nor on repetitions, and iterating union(a,b) and intersection(a,b) together yields exactly as many items as iterating a and b. Equal means: get answers the same at every usize and any number of next calls return the same.", "quantifier": "all tree expressions of any nesting over containers after any supported history, of equal width and depth", "why_tests_cant": "equational laws over all contents, nestings and tree types", "anchors": ["src/ops/union.rs: union", "src/ops/intersection.rs: intersection", "src/ops/map.rs: map", "src/ops/_multi_union.rs: multi_union", "src/ops/_multi_intersection.rs: multi_intersection", "src/hibit_tree.rs: get, iter"]}
{"id": "C61", "title": "DenseTree is memory safe down to the bytes of its nodes", "statement": "A DenseTree keeps each node in one manually laid out allocation (64-bit mask, u8 capacity, u8 length, then an array of node pointers or of u32 data indices) and accesses it with raw pointer reads, writes, memmoves, realloc and dealloc. Whatever sequence of insert, get_or_insert, remove, get, key_values_mut is run on a new tree, each of these accesses is aligned, inside its allocation, reads only initialised bytes of the type it was written with, and every realloc and dealloc gets the layout of the allocation; the calls return what they return on a map, iteration and cursors read the map, and dropping the tree frees its blocks and leaves the memory exactly as it was before the tree existed. This holds whatever else is in memory and wherever the allocator puts new or reallocated blocks. The same holds for materialize from an exact tree, and for the construction from an inexact tree with non-empty content.", "quantifier": "all depths 1..9 (remove: 2..9), all finite histories with fewer than 2^32 elements, all keys (out-of-range ones panic before any access), all value types, all source trees obeying the trait contract, all initial memories, all allocators (any free address, including those of freed blocks; realloc may move or not)", "why_tests_cant": "Node contents, capacities and the reuse of stale cells depend on the whole history; a one-byte overlap or a wrong layout size often goes unnoticed in a test run.", "anchors": ["src/dense_tree/node.rs: NodeHeaderN, EMPTY_BRANCH, layout, children_ptr, new, from_parts, raw_new, raw_push_within_capacity, raw_finalize, insert, remove, drop_node, drop_node_with_childs", "src/dense_tree.rs: get_or_insert_impl, remove, drop_impl, Cursor", "src/dense_tree/from.rs"]}
{"id": "C62", "title": "Closures run once per element, in order, and a panic in one loses only that element", "statement": "The functions passed to map and multi_map_fold may have side effects and may panic. Over any tree expression, the i-th call of next() on an iterator runs the closures of the i-th element in key order exactly once and runs no other closure: left source before right source in a union and an intersection (the right one not at all if the left one panicked), and for multi_map_fold init once and then, source by source, first the source's closure and then f. get(k) runs the same closures once if k is present; if k is absent it runs nothing for containers, map and union, while for intersection and multi_intersection it may run the closures of sources that do have k, in source order, stopping at the first source without k (intersection asks both sources). If a closure panics and the caller catches the panic, the iterator stays usable: the next call returns the next element, so exactly the elements whose closures panicked are missing and nothing is run twice. No such run is undefined behaviour or a panic of the library itself.", "quantifier": "every tree expression built from containers and combinators, every closure (any state, any set of values on which it panics), every number of calls of next, every key", "why_tests_cant": "which elements, how many calls were made before a panic, the state of the closures and the shape of the expression are all unbounded; a test fixes one closure and one panic point", "anchors": ["src/iter.rs: Iter::next", "src/ops/map.rs: Map::data, Map::data_unchecked, Cursor::data, Cursor::data_unchecked", "src/ops/multi_map_fold.rs: MultiMapFold", "src/ops/union.rs: Union::data, Cursor::data", "src/ops/intersection.rs: Intersection::data, Cursor::data", "src/ops/multi_union.rs: MultiUnion::data", "src/ops/multi_intersection.rs: MultiIntersection::data", "src/hibit_tree.rs: HibitTree::get"]}
{"id": "C63", "title": "Both level storages are correct, interchangeable block allocators", "statement": "A level of a SparseTree is an ILevel: insert_empty_block hands out the index of an empty block, remove_empty_block_unchecked takes an emptied block back, blocks_mut lets the owner overwrite its blocks. For every sequence of such calls in which the caller frees only blocks it owns and has emptied, and overwrites only blocks it owns, IntrusiveListLevel (free list threaded through the freed blocks) and Level (free list in a second vector) return the same indices and never misbehave; no allocation returns 0 or a block in use; every allocated block is empty, whatever it contained before it was freed; the owned blocks keep the content their owner gave them; block 0 stays empty; both hold the same number of blocks.", "quantifier": "all finite sequences of calls (fewer than 2^64 - 1) that obey the rules, all block widths, all contents", "why_tests_cant": "the free list's shape depends on the whole history of frees and reuses; a corrupted link shows only under a particular interleaving", "anchors": ["src/level/intrusive_list_level.rs: IntrusiveListLevel", "src/level/level.rs: Level", "src/level/mod.rs: ILevel"]}
{"id": "C64", "title": "Compile-time integers count and arrays split correctly", "statement": "For the public ConstInteger types: dec() is one less and panics only for 0, inc() is one more and panics only for the largest (9), the two are inverse; sat_dec() is one less and stays at 0 for 0; ConstArray::split_last of a non-empty array returns the first elements in order and the last element, each moved exactly once.", "quantifier": "every ConstInteger, every non-empty array of any element type", "why_tests_cant": "a test picks a few integers and arrays; duplicated or leaked elements are visible only to types with destructors", "anchors": ["src/const_utils/const_int.rs: ConstInteger::{dec,inc,sat_dec}, ConstUsize", "src/const_utils/const_array.rs: ConstArray::split_last"]}
{"id": "C65", "title": "DenseTrees sharing one memory do not disturb each other or the program", "statement": "A program may have any number of DenseTrees of any depths at the same time, create further ones with default() or materialize() (for instance of an operation over the existing ones), operate on them in any order, drop them at any moment, and allocate, write and free memory of its own in between. T::default() may panic in get_or_insert, and the program may go on. Each tree behaves as its own map: every operation on it (for a tree materialized from an operation without exact hierarchy: every operation that C43 leaves it) succeeds and returns what it returns on the map, a panic leaves the map as it was, reads, iteration and cursors give the map, and dropping it drops exactly its values, whatever happened to the other trees. The program's own blocks always hold what it wrote to them. When all trees have been dropped nothing but the program's own blocks is left in memory.", "quantifier": "all programs (all interleavings of creations, operations, caught panics of T::default(), drops and foreign allocations, writes and frees), all depths 1..9, all keys and value types, all initial memories, all allocators", "why_tests_cant": "A stray write or a double free shows only when the allocator happens to have put another object there; which addresses are reused depends on the allocator and on the whole program.", "anchors": ["src/dense_tree/node.rs: new, from_parts, raw_new, insert, remove, drop_node, drop_node_with_childs", "src/dense_tree.rs: default, get_or_insert_impl, remove, drop_impl", "src/dense_tree/from.rs"]}
{"id": "C66", "title": "A clustered level block behaves exactly like a full-size one", "statement": "For every mask width and every sequence of get_or_zero, get_or_insert, remove_unchecked and set_unchecked calls that respects the documented preconditions, a ClusterBlock that started empty returns the same items and flags and has the same mask after every call as a table from positions to items.", "quantifier": "every number of mask words, every legal sequence of block operations of any length", "why_tests_cant": "an item's place depends on the rank of its bit inside a 16-bit piece of the mask and on the order in which the pieces were first used; whether anything is lost depends on the whole history", "anchors": ["src/level_block/cluster_block.rs: ClusterBlock::{get_or_zero,get_or_insert,remove_unchecked,set_unchecked}", "src/level_block/mod.rs: HiBlock"]}
{"id": "C67", "title": "The memory work of one DenseTree operation is bounded by the depth", "statement": "In every reachable state of a DenseTree of depth D: insert and get_or_insert of a stored key write no node; of a new key they make exactly one node allocation for each of the key's aligned ranges of 64, 64^2, ..., 64^(D-1) keys that holds no stored key, and at most one reallocation, hence never more than D allocator calls, and change at most two of the existing node blocks; remove never allocates and changes or frees at most D+1 blocks; get and value mutation touch no node. (Predictable insert/remove performance, README.)", "quantifier": "every depth 1..9, every supported history, every next operation and key", "why_tests_cant": "the number of allocator calls depends on which nodes the whole history left behind and how full they are", "anchors": ["src/dense_tree.rs: get_or_insert_impl, remove", "src/dense_tree/node.rs: NodePtr::new, NodePtr::insert, NodePtr::remove"]}
{"id": "C68", "title": "Slack of DenseTree nodes", "statement": "As long as nothing has been removed from a DenseTree, every node has at most twice the slots that it uses for its children and its sentinel, so with C53 the memory is linear in the number of stored keys (times depth).", "quantifier": "every depth 1..9 and every supported history without remove, every node", "why_tests_cant": "an invariant of growth over all histories", "anchors": ["src/dense_tree/node.rs: NodePtr::insert, DEFAULT_CAP"]}
{"id": "C69", "title": "User-written trees that follow the trait documentation work everywhere", "statement": "A tree type written by a user whose `data`/`data_unchecked` agree with a map, and whose cursor returns, for every legal sequence of selects, one fixed mask per selected path (terminal masks = present indices, non-terminal bits set when something is stored below, exact if EXACT_HIERARCHY is declared) and the right elements at terminal nodes, behaves correctly with all provided methods (`get`, `get_unchecked`, `iter`), in every combinator and combination with library trees, and in `materialize`. Conversely every tree expression of the library obeys that documentation itself, so generic user code may rely on it. A tree whose masks miss a present index violates the documentation and iterates wrongly.", "quantifier": "every user implementation of HibitTree/HibitTreeCursor satisfying the documented behaviour, every content, every width/depth, every combination with any library tree expression; every legal cursor history", "why_tests_cant": "it ranges over implementations that do not exist yet and over all cursor histories on them", "anchors": ["src/hibit_tree.rs: HibitTree, HibitTreeCursor", "src/iter.rs: Iter", "src/ops/union.rs", "src/ops/intersection.rs", "src/ops/map.rs"]}
{"id": "C70", "title": "One SparseTree operation touches at most one block per level", "statement": "In every reachable state of a SparseTree of any width W and depth D, with the operation within the index types (C25): insert and get_or_insert of a stored key write no level block; of a new key they write at most one existing block in each level and append at most one block to a level; level m is untouched if the key's aligned range of W^(D-m-1) keys already holds a key, and does not grow if its range of W^(D-m) keys does. remove of an absent key changes nothing; of a stored key it writes at most one block per level (two in the last level), level m < D-1 only if no other key is in the key's range of W^(D-m-1) keys, and never changes the number of blocks. get, get_mut, get_or_default and writes through key_values_mut touch no block.", "quantifier": "every width and depth configuration, every supported history, every key and operation", "why_tests_cant": "a cost and locality bound over all reachable states and all keys; tests see results, not which blocks were written", "anchors": ["src/sparse_tree.rs: get_or_insert_impl, remove, get_mut, key_values_mut", "src/level/intrusive_list_level.rs: insert_empty_block, remove_empty_block_unchecked"]}
{"id": "C71", "title": "A DenseTree on an allocator that refuses memory", "statement": "When the allocator cannot serve a request, a DenseTree operation fails in a defined way (abort, panic or error) and never corrupts memory. In particular, as long as the allocator serves the requests actually made, its later refusals do not matter, and operations that need no memory (get, remove, mutation of values, insert and get_or_insert of a stored key) keep working when it serves none.", "quantifier": "every depth, every supported history, every subset of allocator requests that is refused", "why_tests_cant": "allocation failures do not happen in a test run, and which request fails ranges over every point of every history", "anchors": ["src/dense_tree/node.rs: NodePtr::new, insert", "src/dense_tree/dense_tree.rs: default, get_or_insert_impl"]}
{"id": "C72", "title": "SparseTree through its level tuple and erased block pointers", "statement": "For each depth from 1 to 8, the tree stores its levels in a tuple of different types and reaches blocks through untyped pointers. Whatever the history and the cursor moves, a level is only ever treated as itself: no block is read or written as a block of another type, no pointer into a reallocated buffer is used, no level number falls outside the tuple, and every result equals that of a plain array of levels. Folds over the levels visit each level once, in ascending (or descending) order, until the visitor breaks.", "quantifier": "every shipped configuration, every history (any keys), every legal cursor move sequence, every visitor", "why_tests_cant": "a wrong cast or a dangling pointer usually reads plausible bytes, so a test passes; the eight macro instances times all histories and visitors cannot be enumerated", "anchors": ["src/sparse_tree_levels.rs: SparseTreeLevels, sparse_array_levels_impl!", "src/sparse_tree.rs: BlockPtr, get_block, get_block_mut, fetch_block_indices, remove, get_or_insert_impl, Cursor", "src/config.rs: generate!"]}
{"id": "C73", "title": "Random access reads a fixed number of words, whatever the size of the tree", "statement": "A lookup reads at most DEPTH nodes: for every DenseTree and every key, get and get_unchecked depend only on the masks of at most DEPTH nodes, one child of each, one stored key and one stored value; for every SparseTree, get, get_unchecked, get_mut and get_or_default depend only on one child index per level and one value (no mask, no key). Selecting a node with a cursor reads at most two nodes, cursor data at most one node and one value. Nothing else in the tree - how many keys it holds, what the other nodes are - can change the answer.", "quantifier": "every DenseTree and SparseTree value (reachable or not), every key, every cursor state, level and position", "why_tests_cant": "a test or benchmark samples sizes and keys; the claim bounds what is read for trees of every size and content", "anchors": ["README.md: Always stable O(1) random access", "src/dense_tree.rs: data, get_terminal_node, select_level_node, Cursor::data", "src/dense_tree/node.rs: get_child", "src/sparse_tree.rs: fetch_block_indices, data, get_mut, get_or_default"]}
{"id": "C74", "title": "Element capacity of DenseTree", "statement": "A DenseTree holds any number of in-range elements: inserting a key that is not stored makes `get` of that key return the inserted value, however many elements are already stored. (False: data indices are stored as u32 without a check; the property holds exactly while the tree has fewer than 2^32 - 1 elements. The insertion of element number 2^32 succeeds, yet `get` and `remove` do not find the key, and `get_unchecked`, a second `insert` or `get_or_insert` of it use the uninitialised element 0; all other keys keep their answers.)", "quantifier": "all depths, value types, supported histories, absent in-range keys and values", "why_tests_cant": "The failing state has 2^32 - 1 elements (tens of gigabytes); the absence of failures below it ranges over all histories.", "anchors": ["src/dense_tree.rs: DataIndex, get_or_insert_impl, data, data_unchecked, remove"]}
{"id": "C75", "title": "CondType is a value of the chosen type", "statement": "A CondType<B,T,F> behaves as a plain value of type T (B true) or F (B false): `new` and `default` run exactly the chosen closure, once, with its effects and panics; `get` returns the matching variant with the stored value; a value assigned through `get_mut` is the one read later; `clone` clones the stored value with its own type's Clone; no access reads uninitialised memory or memory of the other type and no unreachable_unchecked arm is reached.", "quantifier": "both values of B, all types T and F, all effectful and panicking closures and Clone/Default implementations, all stored values", "why_tests_cant": "The accessors cast untyped pointers; a wrong cast is undefined behaviour that a test of two concrete types need not show, and user closures are arbitrary.", "anchors": ["src/const_utils/cond_type.rs: CondType, Either", "src/const_utils/const_bool.rs: ConstBool"]}
{"id": "C76", "title": "The project's own randomized and size-driven tests pass for every size and every random sequence", "statement": "The assertions of the repository's tests that depend on a size or on a random generator (test2 and insert_test2 of the trees, fuzzy_test, materialize_test) never fail, and never run into undefined behaviour, whatever the size, the random indices (in range), the number of rounds, and the iteration order of the HashMap they compare with: fill-then-remove leaves every index absent; filling yields each index once in order; after any rounds of random insertions and removals iteration, key_values and get agree with the HashMap, and removing every key of the HashMap empties the tree; the materialized map, intersection and union of two equally filled non-empty trees iterate as those trees.", "quantifier": "all depths (at most 5), all sizes, all finite sequences of random indices in range, all numbers of rounds, all iteration orders of the HashMap", "why_tests_cant": "The tests run one size and one fixed seed; the theorem covers every size and every sequence the generator could have produced.", "anchors": ["src/dense_tree/tests.rs test2", "tests/sparse_tree.rs insert_test2", "tests/fuzzy.rs fuzzy_test", "tests/from.rs materialize_test"]}
{"id": "C77", "title": "materialize runs the closures of each element exactly once, in key order, and no others", "statement": "Materializing a tree expression whose closures (given to map and multi_map_fold) have effects runs the closures of each element of the tree exactly once, in ascending key order, and no closure for any other key; in particular materialize(map(a, g)) calls g on the values of a in key order. If no closure panics, the resulting tree has the keys of the source with the values the closures returned and is usable like any other materialized tree. If a closure panics, the closures of the later elements are not run; the call unwinds when dropping an element does nothing, and is undefined behaviour otherwise (C49).", "quantifier": "every tree expression with closures over every content, every behaviour of the closures (any state, any panics), with or without drop glue", "why_tests_cant": "the order and number of calls depends on the recursion over the node masks of the source, for every shape of the tree and every element on which a closure may panic", "anchors": ["src/dense_tree/from.rs: make_terminal_node, from_exact_sparse_hierarchy, from_sparse_hierarchy, from", "src/ops/map.rs: Cursor::data_unchecked", "src/ops/multi_map_fold.rs"]}
{"id": "C78", "title": "Compact blocks own their boxed arrays: clones are independent, every box is freed exactly once", "statement": "In every program that creates SmallBlocks and, in any order, calls their methods (legally, without the over-read of C59), clones them and drops them: no call touches a freed boxed array or frees one twice; every call on every block, original or clone, returns what an independent table per block would return, so a change through one block is never seen through its clone; at every moment the number of boxed arrays alive equals the number of live blocks that have outgrown their inline array; and once all blocks are dropped no boxed array is left.", "quantifier": "every mask width N > 0, every inline capacity < 256, every program (any number of blocks, any interleaving of calls, clones and drops), every moment of it", "why_tests_cant": "a double free or a shared box needs a particular interleaving of spill, clone and drop over several blocks; leaks are not observable by assertions", "anchors": ["src/level_block/small_block.rs: BigSmallArray::{clone,drop,is_big}, SmallBlock::{clone,insert_unchecked,remove_unchecked,set_unchecked,get_or_insert}"]}
{"id": "C79", "title": "multi_union and multi_intersection are safe for every source iterator", "statement": "multi_union and multi_intersection clone the iterator they are given whenever they need the source trees. Whatever trees the successive clones of a safe (Clone) iterator yield, iterating and get never misbehave: a get answers for the trees of its clone, and an iteration lists the union (intersection) of the trees that the clone made for it yielded.", "quantifier": "all sequences of lists of trees yielded by successive clones, all tree expressions as sources, all numbers of next calls", "why_tests_cant": "tests pass slices, whose clones always agree; the unsafe code relies on agreement that the Clone trait does not promise", "anchors": ["src/ops/_multi_intersection.rs: Cursor::{new,select_level_node,select_level_node_unchecked,data_unchecked}, CursorData::{next,fold}", "src/ops/_multi_union.rs: Cursor::{new,select_level_node_unchecked}"]}
{"id": "C80", "title": "materialize makes one pass over the source and allocates exactly the nodes of the result", "statement": "materialize selects every node of the source reached through set bits exactly once, in ascending depth-first order, and nothing else; for a source with exact hierarchy these are the root and the nodes under which an element is stored. It allocates each node of the result exactly once, with exactly the room its children and the sentinel need, and frees, moves or leaves behind no block; for an exact source the number of allocations equals the number of select calls, which is one for the root plus one per aligned key range, of each level, holding a key. For a source without exact hierarchy, one allocation is made per selected node that leads to a selected terminal node. The value and key vectors have one slot per element besides the sentinel.", "quantifier": "all tree expressions (containers, unions, intersections, multi-operations, maps, user trees) with 64-bit masks, depth at most 9 and fewer than 2^32 elements; the allocation part for every implementation of the traits, lawful or not", "why_tests_cant": "A test compares the resulting content; a doubled visit, a leaked or over-sized block or an unnecessary visit of an empty branch leaves the content unchanged. The claim ranges over all sources and contents.", "anchors": ["src/dense_tree/from.rs: from_exact_sparse_hierarchy, from_sparse_hierarchy, make_terminal_node", "src/dense_tree/node.rs: raw_new, raw_push_within_capacity, raw_finalize, from_parts", "src/hibit_tree.rs: materialize"]}
{"id": "C81", "title": "Debug, release and bmi2 builds behave alike", "statement": "The crate behaves the same in every build. Whether it is compiled with the checks of a debug build (integer overflow, shift amounts, debug_assert!) or without them, and with or without the bmi2 target feature: a supported history of public operations on a DenseTree or SparseTree returns the results of a map, get and get_unchecked answer as the map does, dropping drops every value once and frees every node; a history with arbitrary usize keys runs to the end or panics at an out-of-range key and has no undefined behaviour; every expression (union, intersection, multi operations, map, fold) over the containers obeys the trait contracts with the same content, and get and iteration return it; materialize of an exact expression gives the same tree.", "quantifier": "every build (checks on/off, bmi2 on/off), every tree depth/width, every history, every expression", "why_tests_cant": "a test suite is run in one or two builds on some inputs; a release build silently wraps or skips an assertion instead of failing, so the claim is that no reachable state ever needs one of the removed checks", "anchors": ["src/dense_tree/node.rs: NodePtr::get_dense_index, new, insert, remove, raw_push_within_capacity, raw_finalize", "src/sparse_tree.rs: fetch_block_indices, drop_impl", "src/dense_tree.rs: drop_impl", "src/lib.rs: data_block_index, level_indices", "src/bit_utils.rs"]}
{"id": "C82", "title": "A wrong user implementation of the safe tree traits cannot cause undefined behaviour", "statement": "HibitTree and HibitTreeCursor are safe traits. Whatever a user-written implementation without undefined behaviour of its own answers - masks that announce indices without data, answers that contradict each other or change from call to call, panics - looking up indices in and iterating any expression built from it with the crate's combinators and containers has no undefined behaviour; nor has materializing it, and a tree it is materialized into is a well-formed container holding some map.", "quantifier": "every user-written tree without undefined behaviour of its own, every expression over such trees, containers and combinators, every index, every number of iterator steps", "why_tests_cant": "the answers of a wrong implementation, and their change over time, form an infinite adversarial family; tests use correct trees", "anchors": ["src/hibit_tree.rs: HibitTree, HibitTreeCursor (safe traits)", "src/iter.rs: Iter", "src/ops/union.rs: UnionCursor::data_unchecked", "src/ops/intersection.rs", "src/ops/map.rs", "src/ops/multi_union.rs", "src/ops/multi_intersection.rs", "src/dense_tree/from.rs: from_exact_sparse_hierarchy, from_sparse_hierarchy"]}
{"id": "C83", "title": "Containers holding empty nodes still read, combine and materialize correctly although they claim exactness", "statement": "DenseTree and SparseTree declare EXACT_HIERARCHY, and map, union, multi_union pass the declaration on; but after a caught panic of T::default(), or in a DenseTree materialized from an expression without exact hierarchy, there can be nodes without elements. Any expression over such containers still shows exactly its content through get, cursors and iteration (as a tree without exact hierarchy); materializing it through the path that relies on exactness has no undefined behaviour and gives an equal DenseTree that behaves as the map under every further history and drops correctly. In particular materializing again repairs a tree materialized from an expression without exact hierarchy.", "quantifier": "every history with any number of caught default() panics, every expression over such containers (any number of materialization stages), every supported later history, every index and number of iterator steps", "why_tests_cant": "requires unwinding at chosen points of arbitrary histories, and all expressions over the results; the tests never leave empty nodes in a tree", "anchors": ["src/dense_tree.rs: DenseTree::EXACT_HIERARCHY, get_or_insert", "src/sparse_tree.rs: SparseTree::EXACT_HIERARCHY", "src/dense_tree/from.rs: from_exact_sparse_hierarchy, from_sparse_hierarchy", "src/ops/union.rs: EXACT_HIERARCHY", "src/ops/map.rs: EXACT_HIERARCHY"]}
{"id": "C84", "title": "Iteration of any tree ends, in ascending order, whatever the tree answers", "statement": "Iterating any expression over containers, well-behaved user trees and user-written HibitTree implementations with arbitrary (contradictory, changing, panicking) answers yields items with strictly ascending indices below width^depth, hence at most width^depth items, then None for ever; and if the user's own methods come back, every next() returns (its search loop makes at most 2*width^depth rounds), as do get and materialize.", "quantifier": "all expressions, all user trees (arbitrary state machines returning masks of the right type), all numbers of next() calls", "why_tests_cant": "A test can try a few wrong trees; the claim is about every possible sequence of answers.", "anchors": ["src/iter.rs: Iter::next", "src/hibit_tree.rs: HibitTree, HibitTreeCursor", "src/bit_block.rs: into_bits_iter", "src/dense_tree/from.rs: from_exact_sparse_hierarchy, from_sparse_hierarchy"]}
{"id": "C85", "title": "User-written trees with arbitrary answers behave alike in every build", "statement": "Lookups and iterations over any expression of containers and user-written trees (whatever the latter answer), and materialize of those without a union over a user tree that answers None, do in every build of the crate (debug or release, with or without bmi2) exactly the same: no check of a debug build fires in the crate's code, and release builds have no undefined behaviour that debug builds turn into a panic. In every build: lookups have no undefined behaviour; iteration has none (except finding 24), yields strictly ascending indices, then only None, and ends if the user's methods come back; what materialize makes is a consistent tree.", "quantifier": "all builds, all expressions over containers, well-behaved and arbitrary user-written trees, all keys, all numbers of steps", "why_tests_cant": "Tests run one build, with a few trees; the answers of a user-written tree are arbitrary code.", "anchors": ["src/hibit_tree.rs: HibitTree::get", "src/iter.rs: Iter::next", "src/lib.rs: level_indices, data_block_index", "src/dense_tree/from.rs", "src/_multi_intersection.rs: Cursor::data"]}
{"id": "C86", "title": "DenseTrees in different threads: every schedule", "statement": "Threads that create, use, read, combine and drop DenseTrees never disturb one another, however their memory accesses interleave, as long as they keep Rust's borrowing rule (a tree that is being read may be read by others, but not modified or dropped). Different trees share only the global allocator and the static empty nodes (for which the crate declares `unsafe impl Sync`); readers (`get`, iterators, `materialize`, of a tree or of a map, union, intersection, multi_union or multi_intersection of trees) may moreover share the trees they read. Under every schedule of single memory accesses, with every allocator, and with other code allocating, writing and freeing in between: no access is out of bounds, misaligned, to a freed block or with a wrong layout; no two threads are ever about to make racing accesses (same byte, one a write); nobody writes to a static or to a block of other code; every operation returns and drops exactly what it does on a map, every reader finds what is in the maps, and materialize makes a tree with the map of its source; a get_or_insert whose T::default() panics leaves its tree with its content, an index out of range panics before the first access; a tree nobody is working on reads as its map even while others are in the middle of operations; nothing leaks; and no operation waits for another: insert, get_or_insert, remove, get and key_values_mut make at most 20*DEPTH accesses, default at most 5, get on an expression over n trees at most 2*DEPTH*n, and all others end.", "quantifier": "all numbers of trees and threads, all depths 1..9, all operation sequences that the type supports, all expressions over the trees built with the combinators, all interleavings of the single accesses, all allocators, all activity of other code", "why_tests_cant": "The number of interleavings is astronomical, and a race shows up only under a rare schedule, or never on a given machine.", "anchors": ["src/dense_tree.rs: DenseTree::{default,insert,get_or_insert,remove,get,key_values_mut,drop_impl}", "src/dense_tree/node.rs: EmptyNode (unsafe impl Sync, line 70), NodePtr::{new,insert,remove,drop_node,get_child,set_child,contains}", "src/dense_tree.rs: DenseTreeCursor", "src/dense_tree/from.rs: from_exact_sparse_hierarchy, from_sparse_hierarchy", "src/iter.rs: Iter::next", "src/ops/{union,intersection,map,_multi_union,_multi_intersection,multi_map_fold}.rs"]}
{"id": "C87", "title": "map, union and intersection are safe for every operand type", "statement": "map, union and intersection accept any operand that implements the safe traits Borrow and Borrowable, and call borrow() each time they need the tree. Whatever trees borrow() of a user's operand type answers with, get, iteration and cursors over the result never cause undefined behaviour; when it answers with the same tree each time, the operand behaves as that tree.", "quantifier": "all operand types whose Borrowed type is a well-behaved tree, all sequences of answers of borrow(), all trees", "why_tests_cant": "A test uses trees and references to trees, whose borrow() is the identity; the claim is about every implementation of a safe trait and every sequence of its answers.", "anchors": ["src/utils/borrowable.rs Borrowable", "src/ops/union.rs Union, Cursor", "src/ops/intersection.rs Intersection, Cursor", "src/ops/map.rs Map, Cursor"]}
{"id": "C88", "title": "DenseTree obeys Rust's aliasing rules", "statement": "No sequence of DenseTree calls makes an access that Rust's aliasing rules (Stacked Borrows) forbid: in every history of insert, get_or_insert (and writes through its result), remove, get, in-place mutation and drop, in building a DenseTree by materialize, and in any interleaving of lookups and cursors of any number of readers, every reference into a node (to its header or to one child) is used only while it is valid, and one passed to a function stays valid until the function returns. With all borrows checked, every operation returns what it returns on a map, whatever references earlier uses left behind, and dropping the tree frees every node. Lookups and cursor calls of one reader invalidate no shared reference held by another.", "quantifier": "all depths 1..9, all value types, all supported histories, all interleavings of readers, all source trees, all stacks of borrows left behind", "why_tests_cant": "An aliasing violation computes the right result in an ordinary test run and shows only as a miscompilation; Miri checks one execution at a time, the claim is over all histories.", "anchors": ["src/dense_tree/node.rs:header", "src/dense_tree/node.rs:header_mut", "src/dense_tree/node.rs:get_child", "src/dense_tree/node.rs:get_child_mut", "src/dense_tree/node.rs:children_mut_iter", "src/dense_tree/node.rs:insert", "src/dense_tree/node.rs:remove", "src/dense_tree/node.rs:raw_push_within_capacity", "src/dense_tree/node.rs:raw_finalize", "src/dense_tree.rs:get_or_insert_impl", "src/dense_tree.rs:remove", "src/dense_tree.rs:Cursor", "src/dense_tree/from.rs:from_sparse_hierarchy"]}
{"id": "C89", "title": "SparseTree obeys Rust's aliasing rules", "statement": "No sequence of SparseTree calls makes an access that Rust's aliasing rules (Stacked Borrows) forbid. The owner may change the tree (insert, get_or_insert and writes through its result, remove, get_mut, key_values_mut) and lend it (&tree) in turn, any number of times, to users who call get, get_or_default, key_values and move any number of cursors in any order: every reference to a field, to a level of the tuple or to a block, and every raw block pointer kept by insert or by a cursor, is used only while it is valid, and every reference passed to a function stays valid until the function returns, whatever pointers earlier uses left behind; with all borrows checked every call returns what it returns on a map (masks: exactly the non-empty children), and dropping the tree at the end drops its default value and each stored value once. Checking the borrows adds no failure to any history, supported or not. Calls of one user of a lent tree invalidate no shared reference held by another.", "quantifier": "all widths 64/128/256, depths 1..8, value types, all supported lives (histories alternating with interleaved users), all stacks of borrows left behind; for the last sentence all histories", "why_tests_cant": "An aliasing violation computes the right result in an ordinary test run and shows only as a miscompilation; Miri checks one execution at a time, the claim is over all lives of a tree.", "anchors": ["src/sparse_tree.rs:get_block", "src/sparse_tree.rs:get_block_mut", "src/sparse_tree.rs:BlockPtr", "src/sparse_tree.rs:get_or_insert_impl", "src/sparse_tree.rs:remove", "src/sparse_tree.rs:fetch_block_indices", "src/sparse_tree.rs:get_mut", "src/sparse_tree.rs:key_values_mut", "src/sparse_tree.rs:Cursor", "src/sparse_tree_levels.rs:visit_mut", "src/level/single_block_level.rs:blocks_mut", "src/level/intrusive_list_level.rs:insert_empty_block"]}
{"id": "C90", "title": "multi_union's cursor obeys Rust's aliasing rules", "statement": "Using a multi_union - iterating it, moving its cursor, iterating or materializing a map or fold of it - never makes an access that Rust's aliasing rules (Stacked Borrows) forbid: no list or cursor is written through a reference that another reference to the same memory has invalidated. [False for trees of depth 3 or more: level selection makes a shared reference to the whole slice of per-level lists while a mutable reference to one of them is in use, and then writes through the latter.]", "quantifier": "all source tree types (any implementation of the traits), all source trees, all numbers of next calls, all legal histories of selects, all borrows of the cursor on the stacks before the call", "why_tests_cant": "The violation is invisible at run time unless the optimiser exploits it; Miri sees only the executions it is given, and says nothing about the depths, trees and histories for which there is none.", "anchors": ["src/ops/_multi_union.rs:Cursor::select_level_node_unchecked", "src/ops/_multi_union.rs:Cursor::new", "src/hibit_tree_iter.rs:next"]}
