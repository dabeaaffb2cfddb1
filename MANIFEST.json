{
 "claims": [
  {
   "property": "C01",
   "status": "proved",
   "theorems": [
    "Hibit.Props.C01_split_recombine",
    "Hibit.Props.C01_bijective",
    "Hibit.Props.C01_order"
   ],
   "note": ""
  },
  {
   "property": "C02",
   "status": "proved",
   "theorems": [
    "Hibit.Props.C02_index_from"
   ],
   "note": ""
  },
  {
   "property": "C03",
   "status": "partial",
   "theorems": [
    "Hibit.Props.C03_index_range_partial",
    "Hibit.Props.C03_configs",
    "Hibit.Props.C03_fails_256_8",
    "Hibit.Props.C03_iff"
   ],
   "note": "False for width 256, depth 8 (the power overflows): C03_fails_256_8. Proved for every configuration whose power fits usize (C03_configs lists them), and for no other (C03_iff)."
  },
  {
   "property": "C04",
   "status": "proved",
   "theorems": [
    "Hibit.Props.C04_set_bit",
    "Hibit.Props.C04_get_bit",
    "Hibit.Props.C04_queries"
   ],
   "note": ""
  },
  {
   "property": "C05",
   "status": "proved",
   "theorems": [
    "Hibit.Props.C05_traverse_bits"
   ],
   "note": ""
  },
  {
   "property": "C06",
   "status": "proved",
   "theorems": [
    "Hibit.Props.C06_next",
    "Hibit.Props.C06_empty",
    "Hibit.Props.C06_filled"
   ],
   "note": ""
  },
  {
   "property": "C07",
   "status": "proved",
   "theorems": [
    "Hibit.Props.C07_next_trim"
   ],
   "note": ""
  },
  {
   "property": "C08",
   "status": "partial",
   "theorems": [
    "Hibit.Props.C08_current_64_partial",
    "Hibit.Props.C08_current_partial",
    "Hibit.Props.C08_fails",
    "Hibit.Props.C08_current_value",
    "Hibit.Props.C08_current_iff"
   ],
   "note": "False for multi-word masks when the current word is exhausted but later ones are not (C08_fails); proved for 64-bit masks and for every state outside that situation; C08_current_value gives the value in every state, C08_current_iff exactly when it is right."
  },
  {
   "property": "C09",
   "status": "proved",
   "theorems": [
    "Hibit.Props.C09_traverse"
   ],
   "note": ""
  },
  {
   "property": "C10",
   "status": "proved",
   "theorems": [
    "Hibit.Props.C10_rank"
   ],
   "note": ""
  },
  {
   "property": "C11",
   "status": "proved",
   "theorems": [
    "Hibit.Props.C11_dense_map",
    "Hibit.Props.C11_independent"
   ],
   "note": ""
  },
  {
   "property": "C12",
   "status": "proved",
   "theorems": [
    "Hibit.Props.C12_dense_ops"
   ],
   "note": ""
  },
  {
   "property": "C13",
   "status": "proved",
   "theorems": [
    "Hibit.Props.C13_key_values"
   ],
   "note": ""
  },
  {
   "property": "C14",
   "status": "proved",
   "theorems": [
    "Hibit.Props.C14_memory_safe"
   ],
   "note": ""
  },
  {
   "property": "C15",
   "status": "proved",
   "theorems": [
    "Hibit.Props.C15_dense_exact",
    "Hibit.Props.C15_no_empty_nodes"
   ],
   "note": ""
  },
  {
   "property": "C16",
   "status": "proved",
   "theorems": [
    "Hibit.Props.C16_counters"
   ],
   "note": ""
  },
  {
   "property": "C17",
   "status": "proved",
   "theorems": [
    "Hibit.Props.C17_drop",
    "Hibit.Props.C17_conservation"
   ],
   "note": ""
  },
  {
   "property": "C18",
   "status": "partial",
   "theorems": [
    "Hibit.Props.C18_fails"
   ],
   "note": "The property is false: remove on a depth-1 DenseTree holding the key is undefined behaviour."
  },
  {
   "property": "C19",
   "status": "proved",
   "theorems": [
    "Hibit.Props.C19_sparse_map",
    "Hibit.Props.C19_independent"
   ],
   "note": ""
  },
  {
   "property": "C20",
   "status": "proved",
   "theorems": [
    "Hibit.Props.C20_sparse_ops"
   ],
   "note": ""
  },
  {
   "property": "C21",
   "status": "proved",
   "theorems": [
    "Hibit.Props.C21_key_values"
   ],
   "note": ""
  },
  {
   "property": "C22",
   "status": "proved",
   "theorems": [
    "Hibit.Props.C22_memory_safe"
   ],
   "note": ""
  },
  {
   "property": "C23",
   "status": "proved",
   "theorems": [
    "Hibit.Props.C23_sparse_exact",
    "Hibit.Props.C23_no_empty_blocks"
   ],
   "note": ""
  },
  {
   "property": "C24",
   "status": "proved",
   "theorems": [
    "Hibit.Props.C24_bounded_storage",
    "Hibit.Props.C24_partition"
   ],
   "note": ""
  },
  {
   "property": "C25",
   "status": "partial",
   "theorems": [
    "Hibit.Props.C25_index_types_partial",
    "Hibit.Props.C25_width256_partial",
    "Hibit.Props.C25_fails",
    "Hibit.Props.C25_fails_any_level"
   ],
   "note": "False for width 256: the 256th entry of the root is stored as index 0 and lost (C25_fails, depth 1); C25_fails_any_level: at every width, depth and level, once the number of live blocks of that level fills its index type the next insert that needs a new block there loses its key (get gives none, key_values lists it). Proved for widths 64 and 128 with fewer than 2^32 elements (always so up to depth 5 resp. 4) and, at every width, for histories that never hold 256 keys at once."
  },
  {
   "property": "C26",
   "status": "proved",
   "theorems": [
    "Hibit.Props.C26_drop",
    "Hibit.Props.C26_conservation"
   ],
   "note": ""
  },
  {
   "property": "C27",
   "status": "proved",
   "theorems": [
    "Hibit.Props.C27_iter"
   ],
   "note": ""
  },
  {
   "property": "C28",
   "status": "proved",
   "theorems": [
    "Hibit.Props.C28_fused"
   ],
   "note": ""
  },
  {
   "property": "C29",
   "status": "proved",
   "theorems": [
    "Hibit.Props.C29_get_unchecked"
   ],
   "note": ""
  },
  {
   "property": "C30",
   "status": "proved",
   "theorems": [
    "Hibit.Props.C30_cursor"
   ],
   "note": ""
  },
  {
   "property": "C31",
   "status": "proved",
   "theorems": [
    "Hibit.Props.C31_union"
   ],
   "note": ""
  },
  {
   "property": "C32",
   "status": "proved",
   "theorems": [
    "Hibit.Props.C32_intersection"
   ],
   "note": ""
  },
  {
   "property": "C33",
   "status": "proved",
   "theorems": [
    "Hibit.Props.C33_map"
   ],
   "note": ""
  },
  {
   "property": "C34",
   "status": "proved",
   "theorems": [
    "Hibit.Props.C34_multi_union",
    "Hibit.Props.C34_depth1",
    "Hibit.Props.C34_depth1_iter"
   ],
   "note": "Depth 1, which the quantifier excludes, panics (todo!) as soon as the union is not empty: C34_depth1, C34_depth1_iter."
  },
  {
   "property": "C35",
   "status": "proved",
   "theorems": [
    "Hibit.Props.C35_multi_intersection"
   ],
   "note": ""
  },
  {
   "property": "C36",
   "status": "proved",
   "theorems": [
    "Hibit.Props.C36_fold",
    "Hibit.Props.C56_fold_union",
    "Hibit.Props.C56_fold_intersection"
   ],
   "note": "C56_fold_*: the same through the value iterators' own fold methods"
  },
  {
   "property": "C37",
   "status": "partial",
   "theorems": [
    "Hibit.Props.C37_multi_union_partial",
    "Hibit.Props.C37_multi_union_empty_partial",
    "Hibit.Props.C37_fails",
    "Hibit.Props.C37_fails_for_ever"
   ],
   "note": "True for multi_union, false for multi_intersection (get is Some everywhere)."
  },
  {
   "property": "C38",
   "status": "partial",
   "theorems": [
    "Hibit.Props.C38_fails",
    "Hibit.Props.C38_union_get_partial",
    "Hibit.Props.C38_intersection_get_partial",
    "Hibit.Props.C38_get_unchecked_partial",
    "Hibit.Props.C34_multi_union",
    "Hibit.Props.C35_multi_intersection"
   ],
   "note": "False beyond 32 trees (panic); up to 32 trees C34 and C35. For get the exact set of indices that panic is proved, and get_unchecked has no limit."
  },
  {
   "property": "C39",
   "status": "partial",
   "theorems": [
    "Hibit.Props.C39_cursor_data_partial",
    "Hibit.Props.C39_multi_union_partial",
    "Hibit.Props.C39_fails",
    "Hibit.Props.C39_fails_everywhere",
    "Hibit.Props.C39_fails_nested"
   ],
   "note": "False for multi_union (C39_multi_union_partial says exactly what it returns); proved for containers and all other combinators."
  },
  {
   "property": "C40",
   "status": "partial",
   "theorems": [
    "Hibit.Props.C40_exact_partial",
    "Hibit.Props.C40_fails_materialized",
    "Hibit.Props.C40_materialized_masks",
    "Hibit.Props.C40_materialized_iff"
   ],
   "note": "Proved for every tree expression (containers after any history, materialized exact trees, all combinators); false for a DenseTree materialized from a non-exact tree (C40_fails_materialized). For those, C40_materialized_masks determines every mask and C40_materialized_iff is the exact condition for exactness."
  },
  {
   "property": "C41",
   "status": "proved",
   "theorems": [
    "Hibit.Props.C41_compositions",
    "Hibit.Props.built_isTree"
   ],
   "note": ""
  },
  {
   "property": "C42",
   "status": "proved",
   "theorems": [
    "Hibit.Props.C42_materialize_exact"
   ],
   "note": ""
  },
  {
   "property": "C43",
   "status": "partial",
   "theorems": [
    "Hibit.Props.C43_materialize_partial",
    "Hibit.Props.C43_insert_only_partial",
    "Hibit.Props.C43_fails_empty_root",
    "Hibit.Props.C43_fails_empty",
    "Hibit.Props.C43_fails_insert",
    "Hibit.Props.C43_fails_remove",
    "Hibit.Props.C43_fails_insert_any",
    "Hibit.Props.C43_fails_remove_any"
   ],
   "note": "False as stated: an empty result is undefined behaviour (C43_fails_empty_root, C43_fails_empty), and later insert/remove corrupt memory (C43_fails_insert, C43_fails_remove; for every materialized tree, every insertion adding a child to an existing branch node and every removal emptying the highest block of its parent: C43_fails_insert_any, C43_fails_remove_any). Proved: a non-empty result reads equal, iterates equal, can be dropped, and behaves as the map under every later history that leaves the set of occupied aligned blocks of 64 keys unchanged; depth 1 is fully usable. Also proved (C43_insert_only_partial): it behaves as the map under every history of insertions of any keys, and reads and removals in blocks that hold (another) element: only reads of unoccupied blocks and removals of a block's last element can fail."
  },
  {
   "property": "C44",
   "status": "partial",
   "theorems": [
    "Hibit.Props.C44_const_loop",
    "Hibit.Props.C44_const_loop_rev",
    "Hibit.Props.C44_const_for_partial",
    "Hibit.Props.C44_const_for_rev_partial",
    "Hibit.Props.C44_const_for_fails",
    "Hibit.Props.C44_const_for_rev_fails",
    "Hibit.Props.C44_const_for_visits",
    "Hibit.Props.C44_const_for_rev_visits",
    "Hibit.Props.C44_const_for_iff",
    "Hibit.Props.C44_const_for_rev_iff"
   ],
   "note": "const_loop! is right for every range. const_for is right exactly for lower bounds <= 1 (C44_const_for_iff; it visits everything below the end except from - 1) and const_for_rev exactly for lower bound 0 (C44_const_for_rev_iff; it also visits from - 1)."
  },
  {
   "property": "C45",
   "status": "proved",
   "theorems": [
    "Hibit.Props.C45_dense_empty",
    "Hibit.Props.C45_sparse_empty"
   ],
   "note": ""
  },
  {
   "property": "C46",
   "status": "proved",
   "theorems": [
    "Hibit.Props.C46_dense_out_of_range",
    "Hibit.Props.C46_sparse_out_of_range"
   ],
   "note": ""
  },
  {
   "property": "C47",
   "status": "proved",
   "theorems": [
    "Hibit.Props.C47_dense",
    "Hibit.Props.C47_sparse"
   ],
   "note": ""
  },
  {
   "property": "C48",
   "status": "partial",
   "theorems": [
    "Hibit.Props.C48_dense_partial",
    "Hibit.Props.C48_sparse_partial",
    "Hibit.Props.C48_fails_dense",
    "Hibit.Props.C48_fails_sparse",
    "Hibit.Props.C15_dense_exact",
    "Hibit.Props.C23_sparse_exact"
   ],
   "note": "False: the nodes/blocks created on the way to the key stay behind, empty. Proved: every set bit leads to a stored key or to a stale one (its default panicked while absent and nothing was removed from its block since), and with no stale key left the tree is exact again; without panicking calls exactness holds (C15, C23)."
  },
  {
   "property": "C49",
   "status": "partial",
   "theorems": [
    "Hibit.Props.C49_default_partial",
    "Hibit.Props.C49_fails_default",
    "Hibit.Props.C49_fails_materialize"
   ],
   "note": "False: both constructors hold a Vec of length 1 whose element 0 is uninitialised while caller code runs."
  },
  {
   "property": "C50",
   "status": "proved",
   "theorems": [
    "Hibit.Props.C50_masks",
    "Hibit.Props.C50_same_content",
    "Hibit.Props.C50_dense_sparse",
    "Hibit.Props.C50_dense_histories"
   ],
   "note": "For all tree expressions, and spelled out for DenseTree vs SparseTree and two DenseTree histories."
  },
  {
   "property": "C51",
   "status": "proved",
   "theorems": [
    "Hibit.Props.C51_dense_order",
    "Hibit.Props.C51_sparse_order",
    "Hibit.Props.C51_dense_drop_order",
    "Hibit.Props.C51_sparse_drop_order"
   ],
   "note": "Specification in OrderSpec (upsert, swapRemoveKey)."
  },
  {
   "property": "C52",
   "status": "proved",
   "theorems": [
    "Hibit.Props.C52_dot",
    "Hibit.Props.C52_dot_dense",
    "Hibit.Props.C52_dot_sparse",
    "Hibit.Props.C52_dot_mixed",
    "Hibit.Props.C52_join",
    "Hibit.Props.C52_store",
    "Hibit.Props.C52_convert",
    "Hibit.Props.C52_merge",
    "Hibit.Props.C52_sparse_vector"
   ],
   "note": "End-to-end corollaries; integers instead of floats."
  },
  {
   "property": "C53",
   "status": "proved",
   "theorems": [
    "Hibit.Props.C53_dense_footprint",
    "Hibit.Props.C53_node_bound",
    "Hibit.Props.C53_empty"
   ],
   "note": "node count = 1 + sum over levels of the number of aligned ranges holding a key (rangesHit); corollaries: bound (D-1)*len+1 and only the root when empty"
  },
  {
   "property": "C54",
   "status": "proved",
   "theorems": [
    "Hibit.Props.C54_bit_queues",
    "Hibit.Props.C54_ones",
    "Hibit.Props.C54_empty_queue",
    "Hibit.Props.C54_fold",
    "Hibit.Props.C54_current"
   ],
   "note": "generic in size_of::<P>() and N (C05-C09 are the u64 instance used by the trees); current() is exact for single-word queues, and may stand at an earlier word boundary for arrays (the C08 defect)"
  },
  {
   "property": "C55",
   "status": "partial",
   "theorems": [
    "Hibit.Props.C55_dense_partial",
    "Hibit.Props.C55_fails_dense",
    "Hibit.Props.C55_sparse_partial",
    "Hibit.Props.C55_fails_sparse"
   ],
   "note": "False of the code when exactly one stored value has a panicking destructor: the tree's Drop runs drop_in_place before set_len(0), so the unwinding drops the Vec again (C55_fails_dense, C55_fails_sparse: undefined behaviour for every such tree). Proved: overwriting insert, no panicking value, two or more (abort)."
  },
  {
   "property": "C56",
   "status": "partial",
   "theorems": [
    "Hibit.Props.C56_union_unchecked",
    "Hibit.Props.C56_intersection_unchecked_partial",
    "Hibit.Props.C56_union_cursor",
    "Hibit.Props.C56_intersection_cursor",
    "Hibit.Props.C56_fold_union",
    "Hibit.Props.C56_fold_intersection",
    "Hibit.Props.C56_fails_exact_size"
   ],
   "note": "Holds except that multi_intersection's get_unchecked iterator implements ExactSizeIterator over any source iterator while forwarding its size_hint (C56_fails_exact_size); exact when the source is (slice iterators)."
  },
  {
   "property": "C57",
   "status": "proved",
   "theorems": [
    "Hibit.Props.C57_selects",
    "Hibit.Props.C57_cost",
    "Hibit.Props.C57_rounds",
    "Hibit.Props.C57_recording"
   ],
   "note": "iterTrace records the cursor calls; recording is proved transparent for every implementation."
  },
  {
   "property": "C58",
   "status": "proved",
   "theorems": [
    "Hibit.Props.C58_order",
    "Hibit.Props.C58_exact",
    "Hibit.Props.C58_intersection"
   ],
   "note": "Order is the lexicographic order of node paths."
  },
  {
   "property": "C59",
   "status": "partial",
   "theorems": [
    "Hibit.Props.C59_small_block_partial",
    "Hibit.Props.C59_block",
    "Hibit.Props.C59_one_word",
    "Hibit.Props.C59_fails"
   ],
   "note": "False as stated: remove_unchecked on a full, never spilled inline array of a position outside the last mask word copies one element from beyond the array (finding 17); C59_fails proves that EVERY such legal call is undefined behaviour. C59_small_block_partial proves the property for every legal sequence without such a call, C59_one_word the full property for 64-bit masks. SmallBlock is not reachable through the shipped configurations (the sbo module of config.rs is commented out), only by the crate's own tests."
  },
  {
   "property": "C60",
   "status": "proved",
   "theorems": [
    "Hibit.Props.C60_union",
    "Hibit.Props.C60_intersection",
    "Hibit.Props.C60_absorption",
    "Hibit.Props.C60_distributive",
    "Hibit.Props.C60_map",
    "Hibit.Props.C60_multi",
    "Hibit.Props.C60_multi_set",
    "Hibit.Props.C60_count"
   ],
   "note": "Stated between expressions; map brings the data of both sides to one type. Multi-trees: the documented limits of C34/C35 (at most 32 sources, multi_union depth at least 2)."
  },
  {
   "property": "C61",
   "status": "proved",
   "theorems": [
    "Hibit.Props.C61_bytes",
    "Hibit.Props.C61_bytes_safe",
    "Hibit.Props.C61_bytes_materialize",
    "Hibit.Props.C61_bytes_materialize_inexact"
   ],
   "note": "All of node.rs and the functions of dense_tree.rs and from.rs over blocks of bytes, proved by a simulation: the byte model succeeds with the same results whenever the cell model does, in any initial memory with any allocator (which may reuse freed addresses and grow in place). Out of memory (null) is not modelled. Target: 64-bit little-endian; pointer bytes carry provenance and are read only as pointers."
  },
  {
   "property": "C62",
   "status": "proved",
   "theorems": [
    "Hibit.Props.C62_get",
    "Hibit.Props.C62_get_unchecked",
    "Hibit.Props.C62_next",
    "Hibit.Props.C62_safe",
    "Hibit.Props.C62_cursor",
    "Hibit.Props.C62_map_next",
    "Hibit.Props.C62_map_nested",
    "Hibit.Props.C62_map_calls",
    "Hibit.Props.C62_map_get",
    "Hibit.Props.C62_union_order",
    "Hibit.Props.C62_union_next",
    "Hibit.Props.C62_inter_order",
    "Hibit.Props.C62_inter_next",
    "Hibit.Props.C62_fold_union_next",
    "Hibit.Props.C62_fold_union_get",
    "Hibit.Props.C62_fold_inter_next",
    "Hibit.Props.C62_fold_inter_get",
    "Hibit.Props.C62_inter_fails"
   ],
   "note": "Closures are arbitrary state transformers that may panic; every data function of every combinator is remodelled with the closure calls in place, in code order. Specification: ESpec (which calls, in which order). Hypothesis: each closure, run alone, terminates (Total). C62_inter_fails: get on an intersection runs closures of keys outside the intersection (finding 22), which is why the statement says so. materialize with panicking closures: C49."
  },
  {
   "property": "C63",
   "status": "proved",
   "theorems": [
    "Hibit.Props.C63_same_allocator",
    "Hibit.Props.C63_alloc_empty"
   ],
   "note": "Levels of the trees are IntrusiveListLevel (and SingleBlockLevel for the root); Level is the crate's alternative implementation."
  },
  {
   "property": "C64",
   "status": "partial",
   "theorems": [
    "Hibit.Props.C64_dec",
    "Hibit.Props.C64_inc",
    "Hibit.Props.C64_inverse",
    "Hibit.Props.C64_sat_dec_partial",
    "Hibit.Props.C64_SatDec",
    "Hibit.Props.C64_value",
    "Hibit.Props.C64_split_last",
    "Hibit.Props.C64_sat_dec_fails"
   ],
   "note": "False for sat_dec of 0, which panics (C64_sat_dec_fails, finding 20). Everything else is proved."
  },
  {
   "property": "C65",
   "status": "proved",
   "theorems": [
    "Hibit.Props.C65_trees",
    "Hibit.Props.C65_rest",
    "Hibit.Props.C65_create"
   ],
   "note": "Trees share one value type in the model. Only nodes are in the modelled memory; the buffers of data and keys are Vecs. Trees have a grade (full, loose, block, damaged) that says which operations they support after findings 2, 4 and 14; materialize of exact, wrongly exact and inexact trees is covered, and panics of T::default()."
  },
  {
   "property": "C66",
   "status": "partial",
   "theorems": [
    "Hibit.Props.C66_cluster_block_partial",
    "Hibit.Props.C66_fails_existing",
    "Hibit.Props.C66_fails_below",
    "Hibit.Props.C66_fails_fifth",
    "Hibit.Props.C66_fails_todo"
   ],
   "note": "False as stated (finding 13). C66_cluster_block_partial proves it for every sequence of reads and of insertions that ascend within each group of 16 positions and use at most four groups. From EVERY state so reached: C66_fails_existing (a get_or_insert of an occupied position overwrites it and reports an insertion), C66_fails_below (an insertion below an item of its group makes the group's highest item read as zero), C66_fails_fifth (a fifth group panics), C66_fails_todo (remove and set panic). ClusterBlock is experimental and unused by the crate's trees."
  },
  {
   "property": "C67",
   "status": "proved",
   "theorems": [
    "Hibit.Props.C67_insert",
    "Hibit.Props.C67_remove",
    "Hibit.Props.C67_rest"
   ],
   "note": "Allocator calls are counted by the heap model (addresses are never reused); the growth of the two value/key Vecs is not counted. C67_remove and C67_rest hold in every state, reachable or not."
  },
  {
   "property": "C68",
   "status": "proved",
   "theorems": [
    "Hibit.Props.C68_slack",
    "Hibit.Props.C68_after_remove"
   ],
   "note": "C68_after_remove shows why remove is excluded: nodes never shrink."
  },
  {
   "property": "C69",
   "status": "proved",
   "theorems": [
    "Hibit.Props.C69_user_tree",
    "Hibit.Props.C69_user_multi",
    "Hibit.Props.C69_documented",
    "Hibit.Props.C69_materialize",
    "Hibit.Props.C69_masks_needed"
   ],
   "note": "TreeDocs (Props/Custom.lean) is the purely behavioural contract; docs_isTree proves it equivalent to the internal one. Built.custom makes all other Built theorems cover user trees. Checked cursor data (x = true) is needed only under union/multi_union."
  },
  {
   "property": "C70",
   "status": "proved",
   "theorems": [
    "Hibit.Props.C70_insert",
    "Hibit.Props.C70_remove",
    "Hibit.Props.C70_other"
   ],
   "note": ""
  },
  {
   "property": "C71",
   "status": "partial",
   "theorems": [
    "Hibit.Props.C71_oom_partial",
    "Hibit.Props.C71_materialize_partial",
    "Hibit.Props.C71_no_alloc",
    "Hibit.Props.C71_fails"
   ],
   "note": "False as stated (finding 21): the result of alloc/realloc is never checked. Proved: exact characterisation - the history behaves as the map iff every request it makes is served, otherwise undefined behaviour; the same characterisation for materialize (C71_materialize_partial); operations needing no node memory work with an allocator that serves nothing; inserting into an empty 64-range is UB then. Vec growth (aborts) is not modelled."
  },
  {
   "property": "C72",
   "status": "proved",
   "theorems": [
    "Hibit.Props.C72_typed",
    "Hibit.Props.C72_cursor",
    "Hibit.Props.C72_same",
    "Hibit.Props.C72_safe",
    "Hibit.Props.C72_visit",
    "Hibit.Props.C72_fold",
    "Hibit.Props.C72_fold_mut"
   ],
   "note": "Typed model with buffer identities and block types (Verif/Typed/*); refinement to the inlined model of Sparse/* as full outcome equality."
  },
  {
   "property": "C73",
   "status": "proved",
   "theorems": [
    "Hibit.Props.C73_dense_get",
    "Hibit.Props.C73_dense_get_unchecked",
    "Hibit.Props.C73_dense_select",
    "Hibit.Props.C73_dense_select_unchecked",
    "Hibit.Props.C73_dense_cursor_data",
    "Hibit.Props.C73_sparse_get",
    "Hibit.Props.C73_sparse_get_unchecked",
    "Hibit.Props.C73_get_or_default",
    "Hibit.Props.C73_sparse_levels"
   ],
   "note": "What is read is stated extensionally: the answer is the same in every other tree value that agrees on the listed words. Time per word (popcount, cache) is not modelled."
  },
  {
   "property": "C74",
   "status": "partial",
   "theorems": [
    "Hibit.Props.C74_capacity_partial",
    "Hibit.Props.C74_fails",
    "Hibit.Props.C74_fails_reachable",
    "Hibit.Props.C74_fails_alias",
    "Hibit.Props.C74_alias_reachable"
   ],
   "note": "False as stated (finding 15, the TODO in dense_tree.rs:26). C74_capacity_partial is the exact condition (if and only if); C74_fails is the behaviour in every full tree, C74_fails_reachable shows full trees exist at every depth 6-9. C74_fails_alias: the j-th further insertion shares its entry with the j-th older element, so repeating it changes another key's value."
  },
  {
   "property": "C75",
   "status": "proved",
   "theorems": [
    "Hibit.Props.C75_new",
    "Hibit.Props.C75_from",
    "Hibit.Props.C75_clone",
    "Hibit.Props.C75_get_mut"
   ],
   "note": "Memory is a slot holding nothing, a T or an F; reading the wrong one is undefined behaviour in the model."
  },
  {
   "property": "C76",
   "status": "proved",
   "theorems": [
    "Hibit.Props.C76_test2",
    "Hibit.Props.C76_insert_test2",
    "Hibit.Props.C76_fuzzy",
    "Hibit.Props.C76_materialize",
    "Hibit.Props.C76_materialize_empty"
   ],
   "note": "Tests transcribed as programs over the model. materialize_test with an empty list is undefined behaviour (C76_materialize_empty, finding 3). The tests with literal data are kernel-evaluated examples in the same file."
  },
  {
   "property": "C77",
   "status": "proved",
   "theorems": [
    "Hibit.Props.C77_materialize",
    "Hibit.Props.C77_map"
   ],
   "note": "Conditions: 64-bit masks, depth <= 9, fewer than 2^32 elements and not an inexact tree of depth >= 2 without elements (C43_fails_empty)."
  },
  {
   "property": "C78",
   "status": "proved",
   "theorems": [
    "Hibit.Props.C78_blocks_own",
    "Hibit.Props.C78_no_leak",
    "Hibit.Props.C78_double_drop"
   ],
   "note": "Model: boxes on an explicit heap with never-reused addresses; Clone, Drop and the drop of the old union value on assignment are modelled. The tuple-layout assumption of the union tag stays in the trusted base."
  },
  {
   "property": "C79",
   "status": "partial",
   "theorems": [
    "Hibit.Props.C79_multi_union_partial",
    "Hibit.Props.C79_multi_intersection_partial",
    "Hibit.Props.C79_get_partial",
    "Hibit.Props.C79_fails",
    "Hibit.Props.C79_fails_union"
   ],
   "note": "False for multi_intersection (finding 23): C79_fails proves undefined behaviour for every list of trees when the second clone yields a proper prefix of the first (C79_fails_union: also inside a union). Proved: multi_union in full (its cursor keeps the trees of the first clone); get; multi_intersection when every clone begins with the trees of the first."
  },
  {
   "property": "C80",
   "status": "proved",
   "theorems": [
    "Hibit.Props.C80_recording",
    "Hibit.Props.C80_allocations",
    "Hibit.Props.C80_selects",
    "Hibit.Props.C80_exact",
    "Hibit.Props.C80_inexact"
   ],
   "note": "Counts select calls and allocations of nodes; growth of the two Vecs (amortised by std) is not counted."
  },
  {
   "property": "C81",
   "status": "proved",
   "theorems": [
    "Hibit.Props.C81_dense",
    "Hibit.Props.C81_sparse",
    "Hibit.Props.C81_dense_memory_safe",
    "Hibit.Props.C81_sparse_memory_safe",
    "Hibit.Props.C81_trees",
    "Hibit.Props.C81_materialize",
    "Hibit.Props.C81_materialize_same"
   ],
   "note": "Builds/Model.lean and Builds/Mat.lean give the code with build-dependent arithmetic and assertions; all four builds are covered. index_range differs in the one configuration of finding 6 (C03 states both builds)."
  },
  {
   "property": "C82",
   "status": "partial",
   "theorems": [
    "Hibit.Props.C82_get",
    "Hibit.Props.C82_iter_partial",
    "Hibit.Props.C82_materialize_partial",
    "Hibit.Props.C82_fails"
   ],
   "note": "Proved: get for all expressions, iteration for all expressions without a union over a tree whose cursor answers None at an announced index; materialize of such expressions that claim exactness; and every materialized tree is well-formed. False for the others: C82_fails (finding 24), and materialize of an expression without exactness claim that turns out empty (finding 3)."
  },
  {
   "property": "C83",
   "status": "proved",
   "theorems": [
    "Hibit.Props.C83_reads",
    "Hibit.Props.C83_materialize"
   ],
   "note": "`Loose` is the language of expressions; `UsableInexact` is C42's usability without exactness."
  },
  {
   "property": "C84",
   "status": "proved",
   "theorems": [
    "Hibit.Props.C84_order",
    "Hibit.Props.C84_fused",
    "Hibit.Props.C84_ends"
   ],
   "note": "For the expressions of C82 (without a union over a tree answering None, which may be undefined)."
  },
  {
   "property": "C85",
   "status": "proved",
   "theorems": [
    "Hibit.Props.C85_same",
    "Hibit.Props.C85_get",
    "Hibit.Props.C85_iter",
    "Hibit.Props.C85_materialize",
    "Hibit.Props.C85_ends"
   ],
   "note": "MixedIn: expressions as a build compiles them (leaves: Compiled expressions, arbitrary user trees). Equality with the checked build, including failures."
  },
  {
   "property": "C86",
   "status": "proved",
   "theorems": [
    "Hibit.Props.Threads.C86_safe",
    "Hibit.Props.Threads.C86_race_free",
    "Hibit.Props.Threads.C86_result",
    "Hibit.Props.Threads.C86_content",
    "Hibit.Props.Threads.C86_rest",
    "Hibit.Props.Threads.C86_progress",
    "Hibit.Props.Threads.C86_wait_free",
    "Hibit.Props.Threads.C86_out_of_range",
    "Hibit.Props.Threads.C86_lookup",
    "Hibit.Props.Threads.C86_fold"
   ],
   "note": "The node code again, as programs whose single steps are the loads, stores, copies and allocator calls; proved to refine the byte model. The same for cursors, get, iteration, all combinators and materialize; readers borrow trees, and the borrowing rule is a premise (NotLent). root, data and keys of a tree change only in operations that own it, so they are values of the program, not memory. DenseTree is neither Send nor Sync: in safe Rust the readers of one tree are interleaved iterators of one thread. Allocator calls are atomic."
  },
  {
   "property": "C87",
   "status": "partial",
   "theorems": [
    "Hibit.Props.C87_always_partial",
    "Hibit.Props.C87_get_partial",
    "Hibit.Props.C87_fails"
   ],
   "note": "False for iteration (finding 26): C87_fails proves undefined behaviour of the first next() over map, for every non-empty DenseTree of depth 2 to 9 and an empty one in the same memory, when borrow() answers with the first for selects and the second for data. Proved: constant borrow() (all theorems about expressions then apply); get for every borrow()."
  },
  {
   "property": "C88",
   "status": "proved",
   "theorems": [
    "Hibit.Props.C88_aliasing",
    "Hibit.Props.C88_any_borrows",
    "Hibit.Props.C88_reads",
    "Hibit.Props.C88_readers_keep",
    "Hibit.Props.C88_materialize_any",
    "Hibit.Props.C88_materialize",
    "Hibit.Props.C88_rejects"
   ],
   "note": "Stacked Borrows on the nodes and on the field `root`, in the cell model (addresses never reused stand for provenance). A reference argument is protected until its function returns. Not modelled: two-phase borrows (they only permit more), the vectors `data` and `keys`, user closures."
  },
  {
   "property": "C89",
   "status": "proved",
   "theorems": [
    "Hibit.Props.C89_history",
    "Hibit.Props.C89_same",
    "Hibit.Props.C89_life",
    "Hibit.Props.C89_uses",
    "Hibit.Props.C89_readers_keep",
    "Hibit.Props.C89_rejects"
   ],
   "note": "Stacked Borrows on the tree's fields, the elements of the level tuple and the blocks, on top of the tuple model of C72. One place per block and per vector field. A reference argument is protected until its function returns. Not modelled: two-phase borrows (they only permit more), single elements of the vectors `values`, `keys`, `last_level_block_indices`."
  },
  {
   "property": "C90",
   "status": "partial",
   "theorems": [
    "Hibit.Props.C90_iterate_partial",
    "Hibit.Props.C90_empty_partial",
    "Hibit.Props.C90_iff",
    "Hibit.Props.C90_cursor",
    "Hibit.Props.C90_fold_partial",
    "Hibit.Props.C90_fold_fails",
    "Hibit.Props.C90_materialize_partial",
    "Hibit.Props.C90_materialize_fails",
    "Hibit.Props.C90_select_partial",
    "Hibit.Props.C90_only_ub",
    "Hibit.Props.C90_select_fails",
    "Hibit.Props.C90_fails",
    "Hibit.Props.C90_repaired",
    "Hibit.Props.C90_rejects"
   ],
   "note": "False at depth 3 and more (finding 27): the first next of every non-empty multi_union there is undefined behaviour (C90_fails), as is every selection of a non-empty node of level 2 or deeper (C90_select_fails). Proved: no violation at depth 1 and 2 (C90_iterate_partial) or in any selection of level 0 or 1 (C90_select_partial); and at any depth checking the borrows changes nothing else (C90_only_ub). For exact sources of depth 3 and more C90_iff is the exact condition: undefined behaviour iff the union is not empty. C90_cursor does the same for every legal history of selects of the cursor at any depth from 2; C90_fold_* for map and multi_map_fold over a multi_union, C90_materialize_* for materialize of those. C90_repaired: with one line changed there is no violation at any depth."
  }
 ]
}