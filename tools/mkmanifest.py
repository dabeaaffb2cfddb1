#!/usr/bin/env python3
"""Writes MANIFEST.json. Theorem names are given without the namespace Hibit.Props."""
import json
P="proved"; Q="partial"
C={
"C01":(P,["C01_split_recombine","C01_bijective","C01_order"],""),
"C02":(P,["C02_index_from"],""),
"C03":(Q,["C03_index_range_partial","C03_configs","C03_fails_256_8","C03_iff"],"False for width 256, depth 8 (the power overflows): C03_fails_256_8. Proved for every configuration whose power fits usize (C03_configs lists them), and for no other (C03_iff)."),
"C04":(P,["C04_set_bit","C04_get_bit","C04_queries"],""),
"C05":(P,["C05_traverse_bits"],""),
"C06":(P,["C06_next","C06_empty","C06_filled"],""),
"C07":(P,["C07_next_trim"],""),
"C08":(Q,["C08_current_64_partial","C08_current_partial","C08_fails","C08_current_value","C08_current_iff"],"False for multi-word masks when the current word is exhausted but later ones are not (C08_fails); proved for 64-bit masks and for every state outside that situation; C08_current_value gives the value in every state, C08_current_iff exactly when it is right."),
"C09":(P,["C09_traverse"],""),
"C10":(P,["C10_rank"],""),
"C11":(P,["C11_dense_map","C11_independent"],""),
"C12":(P,["C12_dense_ops"],""),
"C13":(P,["C13_key_values"],""),
"C14":(P,["C14_memory_safe"],""),
"C15":(P,["C15_dense_exact","C15_no_empty_nodes"],""),
"C16":(P,["C16_counters"],""),
"C17":(P,["C17_drop","C17_conservation"],""),
"C18":(Q,["C18_fails"],"The property is false: remove on a depth-1 DenseTree holding the key is undefined behaviour."),
"C19":(P,["C19_sparse_map","C19_independent"],""),
"C20":(P,["C20_sparse_ops"],""),
"C21":(P,["C21_key_values"],""),
"C22":(P,["C22_memory_safe"],""),
"C23":(P,["C23_sparse_exact","C23_no_empty_blocks"],""),
"C24":(P,["C24_bounded_storage","C24_partition"],""),
"C25":(Q,["C25_index_types_partial","C25_width256_partial","C25_fails","C25_fails_any_level"],"False for width 256: the 256th entry of the root is stored as index 0 and lost (C25_fails, depth 1); C25_fails_any_level: at every width, depth and level, once the number of live blocks of that level fills its index type the next insert that needs a new block there loses its key (get gives none, key_values lists it). Proved for widths 64 and 128 with fewer than 2^32 elements (always so up to depth 5 resp. 4) and, at every width, for histories that never hold 256 keys at once."),
"C26":(P,["C26_drop","C26_conservation"],""),
"C27":(P,["C27_iter"],""),
"C28":(P,["C28_fused"],""),
"C29":(P,["C29_get_unchecked"],""),
"C30":(P,["C30_cursor"],""),
"C31":(P,["C31_union"],""),
"C32":(P,["C32_intersection"],""),
"C33":(P,["C33_map"],""),
"C34":(P,["C34_multi_union","C34_depth1","C34_depth1_iter"],"Depth 1, which the quantifier excludes, panics (todo!) as soon as the union is not empty: C34_depth1, C34_depth1_iter."),
"C35":(P,["C35_multi_intersection"],""),
"C36":(P,["C36_fold","C56_fold_union","C56_fold_intersection"],"C56_fold_*: the same through the value iterators' own fold methods"),
"C37":(Q,["C37_multi_union_partial","C37_multi_union_empty_partial","C37_fails","C37_fails_for_ever"],"True for multi_union, false for multi_intersection (get is Some everywhere)."),
"C38":(Q,["C38_fails","C38_union_get_partial","C38_intersection_get_partial","C38_get_unchecked_partial","C34_multi_union","C35_multi_intersection"],"False beyond 32 trees (panic); up to 32 trees C34 and C35. For get the exact set of indices that panic is proved, and get_unchecked has no limit."),
"C39":(Q,["C39_cursor_data_partial","C39_multi_union_partial","C39_fails","C39_fails_everywhere","C39_fails_nested"],"False for multi_union (C39_multi_union_partial says exactly what it returns); proved for containers and all other combinators."),
"C40":(Q,["C40_exact_partial","C40_fails_materialized","C40_materialized_masks","C40_materialized_iff"],"Proved for every tree expression (containers after any history, materialized exact trees, all combinators); false for a DenseTree materialized from a non-exact tree (C40_fails_materialized). For those, C40_materialized_masks determines every mask and C40_materialized_iff is the exact condition for exactness."),
"C41":(P,["C41_compositions","built_isTree"],""),
"C42":(P,["C42_materialize_exact"],""),
"C43":(Q,["C43_materialize_partial","C43_insert_only_partial","C43_fails_empty_root","C43_fails_empty","C43_fails_insert","C43_fails_remove","C43_fails_insert_any","C43_fails_remove_any"],"False as stated: an empty result is undefined behaviour (C43_fails_empty_root, C43_fails_empty), and later insert/remove corrupt memory (C43_fails_insert, C43_fails_remove; for every materialized tree, every insertion adding a child to an existing branch node and every removal emptying the highest block of its parent: C43_fails_insert_any, C43_fails_remove_any). Proved: a non-empty result reads equal, iterates equal, can be dropped, and behaves as the map under every later history that leaves the set of occupied aligned blocks of 64 keys unchanged; depth 1 is fully usable. Also proved (C43_insert_only_partial): it behaves as the map under every history of insertions of any keys, and reads and removals in blocks that hold (another) element: only reads of unoccupied blocks and removals of a block's last element can fail."),
"C44":(Q,["C44_const_loop","C44_const_loop_rev","C44_const_for_partial","C44_const_for_rev_partial","C44_const_for_fails","C44_const_for_rev_fails","C44_const_for_visits","C44_const_for_rev_visits","C44_const_for_iff","C44_const_for_rev_iff"],"const_loop! is right for every range. const_for is right exactly for lower bounds <= 1 (C44_const_for_iff; it visits everything below the end except from - 1) and const_for_rev exactly for lower bound 0 (C44_const_for_rev_iff; it also visits from - 1)."),
"C45":(P,["C45_dense_empty","C45_sparse_empty"],""),
"C46":(P,["C46_dense_out_of_range","C46_sparse_out_of_range"],""),
"C47":(P,["C47_dense","C47_sparse"],""),
"C48":(Q,["C48_dense_partial","C48_sparse_partial","C48_fails_dense","C48_fails_sparse","C15_dense_exact","C23_sparse_exact"],"False: the nodes/blocks created on the way to the key stay behind, empty. Proved: every set bit leads to a stored key or to a stale one (its default panicked while absent and nothing was removed from its block since), and with no stale key left the tree is exact again; without panicking calls exactness holds (C15, C23)."),
"C49":(Q,["C49_default_partial","C49_fails_default","C49_fails_materialize"],"False: both constructors hold a Vec of length 1 whose element 0 is uninitialised while caller code runs."),
"C50":(P,["C50_masks","C50_same_content","C50_dense_sparse","C50_dense_histories"],"For all tree expressions, and spelled out for DenseTree vs SparseTree and two DenseTree histories."),
"C51":(P,["C51_dense_order", "C51_sparse_order","C51_dense_drop_order","C51_sparse_drop_order"],"Specification in OrderSpec (upsert, swapRemoveKey)."),
"C52":(P,["C52_dot", "C52_dot_dense", "C52_dot_sparse", "C52_dot_mixed", "C52_join", "C52_store", "C52_convert", "C52_merge", "C52_sparse_vector"],"End-to-end corollaries; integers instead of floats."),
"C53":(P,["C53_dense_footprint", "C53_node_bound", "C53_empty"],"node count = 1 + sum over levels of the number of aligned ranges holding a key (rangesHit); corollaries: bound (D-1)*len+1 and only the root when empty"),
"C54":(P,["C54_bit_queues", "C54_ones", "C54_empty_queue", "C54_fold", "C54_current"],"generic in size_of::<P>() and N (C05-C09 are the u64 instance used by the trees); current() is exact for single-word queues, and may stand at an earlier word boundary for arrays (the C08 defect)"),
"C55":(Q,["C55_dense_partial", "C55_fails_dense", "C55_sparse_partial", "C55_fails_sparse"],"False of the code when exactly one stored value has a panicking destructor: the tree's Drop runs drop_in_place before set_len(0), so the unwinding drops the Vec again (C55_fails_dense, C55_fails_sparse: undefined behaviour for every such tree). Proved: overwriting insert, no panicking value, two or more (abort)."),
"C56":(Q,["C56_union_unchecked", "C56_intersection_unchecked_partial", "C56_union_cursor", "C56_intersection_cursor", "C56_fold_union", "C56_fold_intersection", "C56_fails_exact_size"],"Holds except that multi_intersection's get_unchecked iterator implements ExactSizeIterator over any source iterator while forwarding its size_hint (C56_fails_exact_size); exact when the source is (slice iterators)."),
"C57":(P,["C57_selects", "C57_cost", "C57_rounds", "C57_recording"],"iterTrace records the cursor calls; recording is proved transparent for every implementation."),
"C58":(P,["C58_order", "C58_exact", "C58_intersection"],"Order is the lexicographic order of node paths."),
"C59":(Q,["C59_small_block_partial", "C59_block", "C59_one_word", "C59_fails"],"False as stated: remove_unchecked on a full, never spilled inline array of a position outside the last mask word copies one element from beyond the array (finding 17); C59_fails proves that EVERY such legal call is undefined behaviour. C59_small_block_partial proves the property for every legal sequence without such a call, C59_one_word the full property for 64-bit masks. SmallBlock is not reachable through the shipped configurations (the sbo module of config.rs is commented out), only by the crate's own tests."),
"C60":(P,["C60_union", "C60_intersection", "C60_absorption", "C60_distributive", "C60_map", "C60_multi", "C60_multi_set", "C60_count"],"Stated between expressions; map brings the data of both sides to one type. Multi-trees: the documented limits of C34/C35 (at most 32 sources, multi_union depth at least 2)."),
"C61":(P,["C61_bytes", "C61_bytes_safe", "C61_bytes_materialize", "C61_bytes_materialize_inexact"],"All of node.rs and the functions of dense_tree.rs and from.rs over blocks of bytes, proved by a simulation: the byte model succeeds with the same results whenever the cell model does, in any initial memory with any allocator (which may reuse freed addresses and grow in place). Out of memory (null) is not modelled. Target: 64-bit little-endian; pointer bytes carry provenance and are read only as pointers."),
"C62":(P,["C62_get", "C62_get_unchecked", "C62_next", "C62_safe", "C62_cursor", "C62_map_next", "C62_map_nested", "C62_map_calls", "C62_map_get", "C62_union_order", "C62_union_next", "C62_inter_order", "C62_inter_next", "C62_fold_union_next", "C62_fold_union_get", "C62_fold_inter_next", "C62_fold_inter_get", "C62_inter_fails"],"Closures are arbitrary state transformers that may panic; every data function of every combinator is remodelled with the closure calls in place, in code order. Specification: ESpec (which calls, in which order). Hypothesis: each closure, run alone, terminates (Total). C62_inter_fails: get on an intersection runs closures of keys outside the intersection (finding 22), which is why the statement says so. materialize with panicking closures: C49."),
"C63":(P,["C63_same_allocator", "C63_alloc_empty"],"Levels of the trees are IntrusiveListLevel (and SingleBlockLevel for the root); Level is the crate's alternative implementation."),
"C64":(Q,["C64_dec", "C64_inc", "C64_inverse", "C64_sat_dec_partial", "C64_SatDec", "C64_value", "C64_split_last", "C64_sat_dec_fails"],"False for sat_dec of 0, which panics (C64_sat_dec_fails, finding 20). Everything else is proved."),
"C65":(P,["C65_trees", "C65_rest", "C65_create"],"Trees share one value type in the model. Only nodes are in the modelled memory; the buffers of data and keys are Vecs. Trees have a grade (full, loose, block, damaged) that says which operations they support after findings 2, 4 and 14; materialize of exact, wrongly exact and inexact trees is covered, and panics of T::default()."),
"C66":(Q,["C66_cluster_block_partial", "C66_fails_existing", "C66_fails_below", "C66_fails_fifth", "C66_fails_todo"],"False as stated (finding 13). C66_cluster_block_partial proves it for every sequence of reads and of insertions that ascend within each group of 16 positions and use at most four groups. From EVERY state so reached: C66_fails_existing (a get_or_insert of an occupied position overwrites it and reports an insertion), C66_fails_below (an insertion below an item of its group makes the group's highest item read as zero), C66_fails_fifth (a fifth group panics), C66_fails_todo (remove and set panic). ClusterBlock is experimental and unused by the crate's trees."),
"C67":(P,["C67_insert", "C67_remove", "C67_rest"],"Allocator calls are counted by the heap model (addresses are never reused); the growth of the two value/key Vecs is not counted. C67_remove and C67_rest hold in every state, reachable or not."),
"C68":(P,["C68_slack", "C68_after_remove"],"C68_after_remove shows why remove is excluded: nodes never shrink."),
"C69":(P,["C69_user_tree", "C69_user_multi", "C69_documented", "C69_materialize", "C69_masks_needed"],"TreeDocs (Props/Custom.lean) is the purely behavioural contract; docs_isTree proves it equivalent to the internal one. Built.custom makes all other Built theorems cover user trees. Checked cursor data (x = true) is needed only under union/multi_union."),
"C70":(P,["C70_insert", "C70_remove", "C70_other"],""),
"C71":(Q,["C71_oom_partial","C71_materialize_partial", "C71_no_alloc", "C71_fails"],"False as stated (finding 21): the result of alloc/realloc is never checked. Proved: exact characterisation - the history behaves as the map iff every request it makes is served, otherwise undefined behaviour; the same characterisation for materialize (C71_materialize_partial); operations needing no node memory work with an allocator that serves nothing; inserting into an empty 64-range is UB then. Vec growth (aborts) is not modelled."),
"C72":(P,["C72_typed", "C72_cursor", "C72_same", "C72_safe", "C72_visit", "C72_fold", "C72_fold_mut"],"Typed model with buffer identities and block types (Verif/Typed/*); refinement to the inlined model of Sparse/* as full outcome equality."),
"C73":(P,["C73_dense_get", "C73_dense_get_unchecked", "C73_dense_select", "C73_dense_select_unchecked", "C73_dense_cursor_data", "C73_sparse_get", "C73_sparse_get_unchecked", "C73_get_or_default", "C73_sparse_levels"],"What is read is stated extensionally: the answer is the same in every other tree value that agrees on the listed words. Time per word (popcount, cache) is not modelled."),
"C74":(Q,["C74_capacity_partial", "C74_fails", "C74_fails_reachable","C74_fails_alias","C74_alias_reachable"],"False as stated (finding 15, the TODO in dense_tree.rs:26). C74_capacity_partial is the exact condition (if and only if); C74_fails is the behaviour in every full tree, C74_fails_reachable shows full trees exist at every depth 6-9. C74_fails_alias: the j-th further insertion shares its entry with the j-th older element, so repeating it changes another key's value."),
"C75":(P,["C75_new", "C75_from", "C75_clone", "C75_get_mut"],"Memory is a slot holding nothing, a T or an F; reading the wrong one is undefined behaviour in the model."),
"C76":(P,["C76_test2", "C76_insert_test2", "C76_fuzzy", "C76_materialize", "C76_materialize_empty"],"Tests transcribed as programs over the model. materialize_test with an empty list is undefined behaviour (C76_materialize_empty, finding 3). The tests with literal data are kernel-evaluated examples in the same file."),
"C77":(P,["C77_materialize", "C77_map"],"Conditions: 64-bit masks, depth <= 9, fewer than 2^32 elements and not an inexact tree of depth >= 2 without elements (C43_fails_empty)."),
"C78":(P,["C78_blocks_own", "C78_no_leak", "C78_double_drop"],"Model: boxes on an explicit heap with never-reused addresses; Clone, Drop and the drop of the old union value on assignment are modelled. The tuple-layout assumption of the union tag stays in the trusted base."),
"C79":(Q,["C79_multi_union_partial", "C79_multi_intersection_partial", "C79_get_partial", "C79_fails", "C79_fails_union"],"False for multi_intersection (finding 23): C79_fails proves undefined behaviour for every list of trees when the second clone yields a proper prefix of the first (C79_fails_union: also inside a union). Proved: multi_union in full (its cursor keeps the trees of the first clone); get; multi_intersection when every clone begins with the trees of the first."),
"C80":(P,["C80_recording", "C80_allocations", "C80_selects", "C80_exact", "C80_inexact"],"Counts select calls and allocations of nodes; growth of the two Vecs (amortised by std) is not counted."),
"C81":(P,["C81_dense", "C81_sparse", "C81_dense_memory_safe", "C81_sparse_memory_safe", "C81_trees", "C81_materialize", "C81_materialize_same"],"Builds/Model.lean and Builds/Mat.lean give the code with build-dependent arithmetic and assertions; all four builds are covered. index_range differs in the one configuration of finding 6 (C03 states both builds)."),
"C82":(Q,["C82_get", "C82_iter_partial", "C82_materialize_partial", "C82_fails"],"Proved: get for all expressions, iteration for all expressions without a union over a tree whose cursor answers None at an announced index; materialize of such expressions that claim exactness; and every materialized tree is well-formed. False for the others: C82_fails (finding 24), and materialize of an expression without exactness claim that turns out empty (finding 3)."),
"C83":(P,["C83_reads", "C83_materialize"],"`Loose` is the language of expressions; `UsableInexact` is C42's usability without exactness."),
"C84":(P,["C84_order", "C84_fused", "C84_ends"],"For the expressions of C82 (without a union over a tree answering None, which may be undefined)."),
"C85":(P,["C85_same", "C85_get", "C85_iter", "C85_materialize", "C85_ends"],"MixedIn: expressions as a build compiles them (leaves: Compiled expressions, arbitrary user trees). Equality with the checked build, including failures."),
"C86":(P,["Threads.C86_safe", "Threads.C86_race_free", "Threads.C86_result", "Threads.C86_content", "Threads.C86_rest", "Threads.C86_progress", "Threads.C86_wait_free", "Threads.C86_out_of_range", "Threads.C86_lookup", "Threads.C86_fold"],"The node code again, as programs whose single steps are the loads, stores, copies and allocator calls; proved to refine the byte model. The same for cursors, get, iteration, all combinators and materialize; readers borrow trees, and the borrowing rule is a premise (NotLent). root, data and keys of a tree change only in operations that own it, so they are values of the program, not memory. DenseTree is neither Send nor Sync: in safe Rust the readers of one tree are interleaved iterators of one thread. Allocator calls are atomic."),
"C87":(Q,["C87_always_partial", "C87_get_partial", "C87_fails"],"False for iteration (finding 26): C87_fails proves undefined behaviour of the first next() over map, for every non-empty DenseTree of depth 2 to 9 and an empty one in the same memory, when borrow() answers with the first for selects and the second for data. Proved: constant borrow() (all theorems about expressions then apply); get for every borrow()."),
"C88":(P,["C88_aliasing", "C88_any_borrows", "C88_reads", "C88_readers_keep", "C88_materialize_any", "C88_materialize", "C88_rejects"],"Stacked Borrows on the nodes and on the field `root`, in the cell model (addresses never reused stand for provenance). A reference argument is protected until its function returns. Not modelled: two-phase borrows (they only permit more), the vectors `data` and `keys`, user closures."),
"C89":(P,["C89_history", "C89_same", "C89_life", "C89_uses", "C89_readers_keep", "C89_rejects"],"Stacked Borrows on the tree's fields, the elements of the level tuple and the blocks, on top of the tuple model of C72. One place per block and per vector field. A reference argument is protected until its function returns. Not modelled: two-phase borrows (they only permit more), single elements of the vectors `values`, `keys`, `last_level_block_indices`."),
"C90":(Q,["C90_iterate_partial", "C90_empty_partial", "C90_iff", "C90_cursor", "C90_fold_partial", "C90_fold_fails", "C90_materialize_partial", "C90_materialize_fails", "C90_select_partial", "C90_only_ub", "C90_select_fails", "C90_fails", "C90_repaired", "C90_rejects"],"False at depth 3 and more (finding 27): the first next of every non-empty multi_union there is undefined behaviour (C90_fails), as is every selection of a non-empty node of level 2 or deeper (C90_select_fails). Proved: no violation at depth 1 and 2 (C90_iterate_partial) or in any selection of level 0 or 1 (C90_select_partial); and at any depth checking the borrows changes nothing else (C90_only_ub). For exact sources of depth 3 and more C90_iff is the exact condition: undefined behaviour iff the union is not empty. C90_cursor does the same for every legal history of selects of the cursor at any depth from 2; C90_fold_* for map and multi_map_fold over a multi_union, C90_materialize_* for materialize of those. C90_repaired: with one line changed there is no violation at any depth."),
}
if __name__=="__main__":
    ids=[json.loads(l)["id"] for l in open("/verif/properties.jsonl") if l.strip()]
    out=[]
    for i in ids:
        if i in C:
            s,t,n=C[i]
            out.append({"property":i,"status":s,"theorems":["Hibit.Props."+x for x in t],"note":n})
    json.dump({"claims":out},open("/verif/MANIFEST.json","w"),indent=1)
    missing=[i for i in ids if i not in C]
    print("missing:",missing)
