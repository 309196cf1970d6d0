{
 "claims": [
  {
   "property": "C01",
   "status": "proved",
   "theorems": [
    "LBDD.C01_and_correct"
   ],
   "note": ""
  },
  {
   "property": "C02",
   "status": "partial",
   "theorems": [
    "LBDD.C02_or_correct_partial",
    "LBDD.C02_or_mixed_partial",
    "LBDD.C02_refuted"
   ],
   "note": "Proved for histories without xor_rec (or_rec and xor_rec share memo entries: C02_refuted). False in general; in mixed histories the result is still right wherever not both operands are true (C02_or_mixed_partial)."
  },
  {
   "property": "C03",
   "status": "proved",
   "theorems": [
    "LBDD.C03_negate_correct"
   ],
   "note": ""
  },
  {
   "property": "C04",
   "status": "partial",
   "theorems": [
    "LBDD.C04_xor_correct_partial",
    "LBDD.C04_xor_mixed_partial",
    "LBDD.C04_refuted"
   ],
   "note": "Proved for histories without or_rec/ite_rec; false in general. In mixed histories the result is still right wherever not both operands are true."
  },
  {
   "property": "C05",
   "status": "partial",
   "theorems": [
    "LBDD.C05_ite_correct_partial",
    "LBDD.C05_ite_if_returns_partial",
    "LBDD.C05_ite_mixed_partial",
    "LBDD.C05_refuted"
   ],
   "note": "Proved when the last variable is absent from the condition or from both branches (otherwise undefined behaviour, C05_refuted); whenever the call returns the result is right."
  },
  {
   "property": "C06",
   "status": "proved",
   "theorems": [
    "LBDD.C06_projection_correct",
    "LBDD.C06_negProjection_correct",
    "LBDD.C06_addVariable_correct",
    "LBDD.C06_undeclared"
   ],
   "note": "C06_undeclared: neg_projection and unique_find do not create variables."
  },
  {
   "property": "C07",
   "status": "partial",
   "theorems": [
    "LBDD.C07_canonical_partial",
    "LBDD.C07_equal_nodes_equal_handles",
    "LBDD.C07_refuted"
   ],
   "note": "Proved for histories that respect the variable order and do not use xor_rec; xor_rec breaks it."
  },
  {
   "property": "C08",
   "status": "partial",
   "theorems": [
    "LBDD.C08_ordered_partial",
    "LBDD.C08_refuted"
   ],
   "note": "As C07."
  },
  {
   "property": "C09",
   "status": "proved",
   "theorems": [
    "LBDD.C09_handles_stable"
   ],
   "note": ""
  },
  {
   "property": "C10",
   "status": "proved",
   "theorems": [
    "LBDD.C10_no_duplicates",
    "LBDD.C10_unique_find"
   ],
   "note": ""
  },
  {
   "property": "C11",
   "status": "proved",
   "theorems": [
    "LBDD.C11_lookup_exact",
    "LBDD.C11_insert_terminates",
    "LBDD.C11_growth_exact"
   ],
   "note": ""
  },
  {
   "property": "C12",
   "status": "partial",
   "theorems": [
    "LBDD.C12_exception_partial",
    "LBDD.capacity_reached",
    "LBDD.C12_refuted"
   ],
   "note": "The exception occurs only when a variable has more than 2^18 nodes and changes no BDD, but the manager is unusable afterwards (handles and questions still work: C92)."
  },
  {
   "property": "C13",
   "status": "partial",
   "theorems": [
    "LBDD.C13_lookup_exact",
    "LBDD.C13_insert_found",
    "LBDD.C13_growth_lossless",
    "LBDD.C13_reachable_growth_lossless",
    "LBDD.C13_and_entries_true",
    "LBDD.C13_or_entries_true_partial",
    "LBDD.C13_transparent_partial",
    "LBDD.C13_refuted_limited",
    "LBDD.C13_refuted_mixed",
    "LBDD.C23_refuted_null"
   ],
   "note": "Exactness and losslessness proved; independence of all results of the cache (a process losing arbitrary entries between calls sees the same results) proved for histories without a node limit that do not mix or_rec and xor_rec, refuted for both exceptions."
  },
  {
   "property": "C14",
   "status": "partial",
   "theorems": [
    "LBDD.C14_same_results_partial",
    "LBDD.C14_refuted_limited",
    "LBDD.C14_refuted_mixed",
    "LBDD.C14_refuted_gc"
   ],
   "note": "Proved for every history that does not use both or_rec-family and xor_rec calls and does not call and_rec with a node limit (node counts of single BDDs always; the total count, in histories that do not respect the variable order, only without garbage collection: C14_refuted_gc). Refuted for and_rec with a node limit (its give-up decision depends on memo collisions, C14_refuted_limited) and for histories mixing or_rec and xor_rec, which share memo entries (C14_refuted_mixed)."
  },
  {
   "property": "C15",
   "status": "partial",
   "theorems": [
    "LBDD.C15_and_range",
    "LBDD.C15_or_range_partial",
    "LBDD.C15_xor_range_partial",
    "LBDD.C15_and_variadic",
    "LBDD.C15_or_variadic_partial",
    "LBDD.C15_xor_variadic_partial",
    "LBDD.C15_or_range_mixed_partial",
    "LBDD.C15_xor_range_mixed_partial",
    "LBDD.C15_or_variadic_mixed_partial",
    "LBDD.C15_xor_variadic_mixed_partial",
    "LBDD.C15_or_refuted",
    "LBDD.C15_xor_refuted"
   ],
   "note": "Conjunctions in every history; disjunction and parity in histories that do not mix or and xor, and in every history wherever at most one operand is true. False otherwise (the refutations)."
  },
  {
   "property": "C16",
   "status": "proved",
   "theorems": [
    "LBDD.C16_all_false",
    "LBDD.C16_at_least_one"
   ],
   "note": ""
  },
  {
   "property": "C17",
   "status": "partial",
   "theorems": [
    "LBDD.C17_simplex_partial",
    "LBDD.C17_at_most_one_partial",
    "LBDD.C17_simplex_mixed_partial",
    "LBDD.C17_at_most_one_mixed_partial",
    "LBDD.C17_at_most_one_refuted",
    "LBDD.C17_simplex_refuted"
   ],
   "note": "Proved for histories without xor_rec (or_rec and xor_rec share memo entries: C02_refuted). False otherwise (the refutations), but never wrongly true, in any history (the mixed theorems)."
  },
  {
   "property": "C18",
   "status": "partial",
   "theorems": [
    "LBDD.C18_at_least_partial",
    "LBDD.C18_at_least_mixed_partial",
    "LBDD.C18_refuted"
   ],
   "note": "Proved for histories without xor_rec (or_rec and xor_rec share memo entries: C02_refuted). False otherwise (C18_refuted); in every history the result is never wrongly true, and it is right wherever at most b elements are true (C18_at_least_mixed_partial)."
  },
  {
   "property": "C19",
   "status": "partial",
   "theorems": [
    "LBDD.C19_at_most_partial",
    "LBDD.C19_large_bound",
    "LBDD.C19_at_most_mixed_partial",
    "LBDD.C19_refuted"
   ],
   "note": "Proved for b <= n (histories without xor_rec); for b > n the result is constant false. In every history the result is never wrongly true, and for b <= n right wherever at least b elements are true (C19_at_most_mixed_partial)."
  },
  {
   "property": "C20",
   "status": "proved",
   "theorems": [
    "LBDD.C20_cardinality"
   ],
   "note": "In every history, mixed ones included."
  },
  {
   "property": "C21",
   "status": "partial",
   "theorems": [
    "LBDD.C21_simplex_cardinality_partial",
    "LBDD.C21_at_least_one_partial",
    "LBDD.C21_at_most_one_partial",
    "LBDD.C21_range_variadic_partial",
    "LBDD.C21_laws_partial",
    "LBDD.C21_refuted"
   ],
   "note": "For histories that respect the variable order and do not use xor_rec."
  },
  {
   "property": "C22",
   "status": "proved",
   "theorems": [
    "LBDD.C22_limited_correct",
    "LBDD.C22_limited_returns"
   ],
   "note": ""
  },
  {
   "property": "C23",
   "status": "partial",
   "theorems": [
    "LBDD.C22_limited_correct",
    "LBDD.C23_count_partial",
    "LBDD.C23_wide_limit_partial",
    "LBDD.C23_same_partial",
    "LBDD.C23_concrete",
    "LBDD.C23_refuted",
    "LBDD.C23_refuted_null",
    "LBDD.C23_refuted_zero",
    "LBDD.C23_refuted_repeat"
   ],
   "note": "False as stated: the count is not the number of nodes (with limit 0 a conjunction of 2 nodes is returned with count 0), null is returned although the conjunction is small enough, and repeating a successful call gives null. Proved: a non-null result is the conjunction; the count does not exceed the limit unless an operand is the constant true; null is not returned when the limit is at least the product of the numbers of paths of the operands (ordered histories); exactness for equal operands."
  },
  {
   "property": "C24",
   "status": "proved",
   "theorems": [
    "LBDD.C24_nr_nodes",
    "LBDD.ListsOnce.length_unique",
    "LBDD.C24_assert"
   ],
   "note": "On a sink, only in builds where the uninitialised mark bit is harmless (C24_assert)."
  },
  {
   "property": "C25",
   "status": "proved",
   "theorems": [
    "LBDD.C25_nodes_postorder",
    "LBDD.C25_exact"
   ],
   "note": "As C24 for sinks."
  },
  {
   "property": "C26",
   "status": "proved",
   "theorems": [
    "LBDD.C26_nodes_bfs",
    "LBDD.C26_exact",
    "LBDD.C26_order_unique"
   ],
   "note": ""
  },
  {
   "property": "C27",
   "status": "proved",
   "theorems": [
    "LBDD.C27_variables_support",
    "LBDD.C27_variables_occurring"
   ],
   "note": ""
  },
  {
   "property": "C28",
   "status": "proved",
   "theorems": [
    "LBDD.C28_exactly_one_solution"
   ],
   "note": ""
  },
  {
   "property": "C29",
   "status": "proved",
   "theorems": [
    "LBDD.C29_rebase_map",
    "LBDD.C29_rebase_vec",
    "LBDD.C29_overloads_agree"
   ],
   "note": ""
  },
  {
   "property": "C30",
   "status": "proved",
   "theorems": [
    "LBDD.C30_xref_exact",
    "LBDD.C30_all_counted",
    "LBDD.C30_held_live"
   ],
   "note": ""
  },
  {
   "property": "C31",
   "status": "partial",
   "theorems": [
    "LBDD.C31_gc_keeps_partial",
    "LBDD.C31_refuted_stale_handle",
    "LBDD.C31_refuted_double_free"
   ],
   "note": "Every collection that returns keeps everything reachable from held handles, for every table layout and after any number of earlier collections; but a manager call after an unsafe collection can hand out a freed node (C31_refuted_stale_handle), and a collection can free a node twice (C31_refuted_double_free)."
  },
  {
   "property": "C32",
   "status": "partial",
   "theorems": [
    "LBDD.C32_gc_complete_partial",
    "LBDD.C32_stored_partial",
    "LBDD.C32_refuted"
   ],
   "note": "Proved where the garbage is isolated in the unique tables (GcSafe); false in general: dead followers are unlinked but never freed. For every collection that returns in histories that respect the order, whatever the layout: every node still stored in a unique table is in use and held or a child of a node in use."
  },
  {
   "property": "C33",
   "status": "partial",
   "theorems": [
    "LBDD.C33_gc_returns_partial",
    "LBDD.C33_gc_no_garbage",
    "LBDD.C33_single_garbage",
    "LBDD.C33_first_garbage_hangs",
    "LBDD.C33_refuted"
   ],
   "note": "Proved where the garbage is isolated (GcSafe) and when there is no garbage; with exactly one node of garbage it is decided for every table layout whether the collection returns, crashes or loops for ever (C33_single_garbage); false in general: a whole class of states from which the collection never returns (C33_first_garbage_hangs), and a concrete one."
  },
  {
   "property": "C34",
   "status": "partial",
   "theorems": [
    "LBDD.C34_after_gc_partial",
    "LBDD.C34_and_after_gc_partial",
    "LBDD.C34_or_after_gc_partial",
    "LBDD.C34_refuted",
    "LBDD.C34_refuted_freed"
   ],
   "note": "Proved when no memo entry mentions garbage (GcSafe); false in general: the memo cache is never purged, and returns freed or re-used nodes."
  },
  {
   "property": "C35",
   "status": "partial",
   "theorems": [
    "LBDD.C35_not_shrunk_partial",
    "LBDD.C35_never_shrunk_partial",
    "LBDD.C35_found_partial",
    "LBDD.C35_shrink_crashes",
    "LBDD.C35_gc_crashes",
    "LBDD.C35_refuted"
   ],
   "note": "Shrinking a unique table always crashes (for every address assignment and every hash keys), so that a collection that returns has shrunk none (C35_never_shrunk_partial, every history); after it, in histories that respect the order, every node still needed is found by unique_find, whatever the layout of the tables (C35_found_partial)."
  },
  {
   "property": "C36",
   "status": "proved",
   "theorems": [
    "LBDD.C36_pool",
    "LBDD.C36_mgr_nr_nodes"
   ],
   "note": ""
  },
  {
   "property": "C37",
   "status": "proved",
   "theorems": [
    "LBDD.C37_reserve",
    "LBDD.C37_free",
    "LBDD.C37_pages"
   ],
   "note": ""
  },
  {
   "property": "C38",
   "status": "proved",
   "theorems": [
    "LBDD.C38_page_large",
    "LBDD.C38_pages_exchanged"
   ],
   "note": "C38_page_large: the manager model in every reachable state; C38_pages_exchanged: the pools, with pages wandering between them."
  },
  {
   "property": "C39",
   "status": "proved",
   "theorems": [
    "LBDD.C39_add_bdd"
   ],
   "note": ""
  },
  {
   "property": "C40",
   "status": "proved",
   "theorems": [
    "LBDD.C40_round_trip",
    "LBDD.C40_export_any"
   ],
   "note": ""
  },
  {
   "property": "C41",
   "status": "partial",
   "theorems": [
    "LBDD.C41_import_partial",
    "LBDD.C41_debug_limit",
    "LBDD.C41_refuted"
   ],
   "note": "In debug builds only while every child offset stays below 1000 (an assert); beyond that the call aborts."
  },
  {
   "property": "C42",
   "status": "partial",
   "theorems": [
    "LBDD.C42_and_partial",
    "LBDD.C42_contradiction",
    "LBDD.C42_refuted"
   ],
   "note": "Proved for satisfiable conjunctions; a contradiction yields an entry that evaluates to true (NDEBUG) or an assertion failure."
  },
  {
   "property": "C43",
   "status": "proved",
   "theorems": [
    "LBDD.C43_limit_exact"
   ],
   "note": ""
  },
  {
   "property": "C44",
   "status": "partial",
   "theorems": [
    "LBDD.C44_and_range_partial",
    "LBDD.C44_contradiction",
    "LBDD.C44_other_lengths"
   ],
   "note": "Proved for satisfiable conjunctions of 1..49 operands; see C42 for contradictions."
  },
  {
   "property": "C45",
   "status": "proved",
   "theorems": [
    "LBDD.C45_and_structure",
    "LBDD.C45_and_range_structure"
   ],
   "note": ""
  },
  {
   "property": "C46",
   "status": "proved",
   "theorems": [
    "LBDD.C46_and_keeps",
    "LBDD.C46_add_keeps",
    "LBDD.C46_rebase_keeps"
   ],
   "note": ""
  },
  {
   "property": "C47",
   "status": "partial",
   "theorems": [
    "LBDD.C47_remove_partial",
    "LBDD.C47_remove_nothing",
    "LBDD.C47_remove_other",
    "LBDD.C47_refuted"
   ],
   "note": "Proved when the last entry is among those removed (or nothing is removed); otherwise remove reads past the end of its input range: C47_remove_other."
  },
  {
   "property": "C48",
   "status": "proved",
   "theorems": [
    "LBDD.C48_rebase_vec",
    "LBDD.C48_rebase_map",
    "LBDD.C48_overloads_agree"
   ],
   "note": ""
  },
  {
   "property": "C49",
   "status": "proved",
   "theorems": [
    "LBDD.C49_queries"
   ],
   "note": ""
  },
  {
   "property": "C50",
   "status": "partial",
   "theorems": [
    "LBDD.C50_or_var_partial",
    "LBDD.C50_paths",
    "LBDD.C50_ignored",
    "LBDD.C50_returned",
    "LBDD.C50_debug",
    "LBDD.C50_many_removed",
    "LBDD.C50_crash",
    "LBDD.C50_refuted",
    "LBDD.C50_refuted_crash",
    "LBDD.C50_refuted_root",
    "LBDD.C50_refuted_wrap"
   ],
   "note": "Exact description of the result (C50_paths: only paths that test a listed variable are rerouted) when reduce() has nothing to remove, and, for entries whose root is kept, whenever the call returns: always in debug builds (C50_debug), in release builds if fewer than 128 nodes are lost (C50_returned); if 128 or more are lost the call returns in release builds only and the new entry always has a node with arcs out of range (C50_many_removed). C50_crash: a kept node with a dropped child makes the call undefined. The full claim is false: a variable the entry does not test is ignored (C50_refuted), a node removed below the root crashes (C50_refuted_crash), a removed root gives a wrong entry: not(x0 and x1) or x0 comes out as not x1 (C50_refuted_root), and with 128 removed nodes evaluate reads out of range (C50_refuted_wrap)."
  },
  {
   "property": "C51",
   "status": "partial",
   "theorems": [
    "LBDD.C51_sinks_partial",
    "LBDD.C51_and_exchanged",
    "LBDD.C51_refuted"
   ],
   "note": "Holds for entries made by add_bdd; every entry made by bdd_and has its sinks exchanged."
  },
  {
   "property": "C52",
   "status": "partial",
   "theorems": [
    "LBDD.C52_build_partial",
    "LBDD.C52_refuted_debug",
    "LBDD.C52_refuted_handle",
    "LBDD.C52_refuted_missing",
    "LBDD.C52_refuted_sinks",
    "LBDD.C52_refuted_first",
    "LBDD.C52_close_again",
    "LBDD.C52_missing_noticed_late"
   ],
   "note": "Proved for release builds, arcs set through collection[nr][k] and a last entry that stores its false sink first; all other cases are refuted: debug builds abort, the handle returned by add_bdd_node dangles, missing arcs are not detected, the sinks are those of the previous entry, the first entry cannot be built."
  },
  {
   "property": "C53",
   "status": "proved",
   "theorems": [
    "LBDD.C53_depth",
    "LBDD.C53_recorded",
    "LBDD.C53_again",
    "LBDD.C53_refuted_gc"
   ],
   "note": "Histories may contain collect_garbage while all recorded nodes are needed; the table keeps the depth of a freed node, which is wrong for the node that takes its place (C53_refuted_gc)."
  },
  {
   "property": "C54",
   "status": "partial",
   "theorems": [
    "LBDD.C54_sinks_distinct_partial",
    "LBDD.C54_refuted"
   ],
   "note": "Proved for indices below 2^41-2; false for the two largest accepted indices."
  },
  {
   "property": "C55",
   "status": "partial",
   "theorems": [
    "LBDD.C55_destroy_partial",
    "LBDD.C55_destroy_release_partial",
    "LBDD.C55_refuted"
   ],
   "note": "Proved for histories that respect the variable order (debug and release builds) and for all histories in release builds; false in debug builds for histories with xor_rec."
  },
  {
   "property": "C56",
   "status": "proved",
   "theorems": [
    "LBDD.C56_find_bdd_mgr"
   ],
   "note": ""
  },
  {
   "property": "C57",
   "status": "proved",
   "theorems": [
    "LBDD.C57_and_vars",
    "LBDD.C57_or_vars",
    "LBDD.C57_xor_vars",
    "LBDD.C57_negate_vars",
    "LBDD.C57_ite_vars"
   ],
   "note": ""
  },
  {
   "property": "C58",
   "status": "partial",
   "theorems": [
    "LBDD.C58_print",
    "LBDD.C58_print_exact",
    "LBDD.C58_graphviz",
    "LBDD.C58_graphviz_no_inner"
   ],
   "note": "export_graphviz of an entry without inner nodes (possible in release builds only) reads out of range."
  },
  {
   "property": "C59",
   "status": "proved",
   "theorems": [
    "LBDD.C59_navigate",
    "LBDD.C59_sinks"
   ],
   "note": ""
  },
  {
   "property": "C60",
   "status": "proved",
   "theorems": [
    "LBDD.C60_postorder"
   ],
   "note": ""
  },
  {
   "property": "C61",
   "status": "proved",
   "theorems": [
    "LBDD.C61_and",
    "LBDD.C61_or",
    "LBDD.C61_xor",
    "LBDD.C61_negate",
    "LBDD.C61_ite",
    "LBDD.C61_projection",
    "LBDD.C61_negProjection",
    "LBDD.C61_unique_find"
   ],
   "note": "For calls that return a BDD (ite_rec may be undefined, C05_refuted; a full table throws, C12)."
  },
  {
   "property": "C62",
   "status": "partial",
   "theorems": [
    "LBDD.C62_and_repeat_partial",
    "LBDD.C62_or_repeat_partial",
    "LBDD.C62_negate_repeat_partial",
    "LBDD.C62_ite_repeat_partial",
    "LBDD.C62_refuted"
   ],
   "note": "For histories that respect the variable order and do not use xor_rec; false for BDDs built against the order (C62_refuted)."
  },
  {
   "property": "C63",
   "status": "partial",
   "theorems": [
    "LBDD.C63_gc_twice_partial",
    "LBDD.C63_gc_twice_returns_partial",
    "LBDD.C63_returns_concrete",
    "LBDD.C63_refuted"
   ],
   "note": "False in general (C63_refuted). In histories that respect the variable order and do not use xor_rec, followed by any handle operations and collections: after every collection that returns, whatever the layout of the tables, a second one returns and changes nothing."
  },
  {
   "property": "C64",
   "status": "partial",
   "theorems": [
    "LBDD.C64_and_size",
    "LBDD.C64_or_size_partial",
    "LBDD.C64_xor_size_partial",
    "LBDD.C64_ite_size_partial",
    "LBDD.C64_negate_size",
    "LBDD.C64_combination_size_partial",
    "LBDD.C64_refuted_mixed",
    "LBDD.C64_refuted_combination"
   ],
   "note": "and_rec and negate: every history. or_rec and ite_rec: every history without xor_rec; xor_rec: every history without or_rec-family calls. Arbitrary combinations: histories that respect the variable order and do not use xor_rec. False for or_rec after xor_rec calls, whose results it finds in the memo cache (C64_refuted_mixed), and for combinations in histories with xor_rec (C64_refuted_combination)."
  },
  {
   "property": "C65",
   "status": "proved",
   "theorems": [
    "LBDD.C65_sinks",
    "LBDD.C65_walk",
    "LBDD.C65_cofactors"
   ],
   "note": ""
  },
  {
   "property": "C66",
   "status": "partial",
   "theorems": [
    "LBDD.C66_constants_partial",
    "LBDD.C66_sinks_constant",
    "LBDD.C66_refuted"
   ],
   "note": "For histories that respect the variable order and do not use xor_rec; false with xor_rec (C66_refuted)."
  },
  {
   "property": "C67",
   "status": "partial",
   "theorems": [
    "LBDD.C67_repeat_partial",
    "LBDD.C67_and",
    "LBDD.C67_negate",
    "LBDD.C67_or_partial",
    "LBDD.C67_xor_partial",
    "LBDD.C67_ite_partial",
    "LBDD.C67_refuted_mixed"
   ],
   "note": "and_rec and negate: every history. Every function but the limited conjunction: every history that does not use both or_rec and xor_rec; false for those (C67_refuted_mixed)."
  },
  {
   "property": "C68",
   "status": "partial",
   "theorems": [
    "LBDD.C68_negate_twice",
    "LBDD.C68_and_comm",
    "LBDD.C68_and_units",
    "LBDD.C68_or_units",
    "LBDD.C68_xor_units",
    "LBDD.C68_or_comm_partial",
    "LBDD.C68_de_morgan_partial",
    "LBDD.C68_xor_comm_partial",
    "LBDD.C68_refuted_mixed",
    "LBDD.C68_refuted_assoc"
   ],
   "note": "Laws of and_rec and negate and all laws with a constant or equal operands: every history. Commutativity of or_rec and De Morgan: histories without xor_rec; commutativity of xor_rec: histories without or_rec. De Morgan is false in histories that use both (C68_refuted_mixed); associativity is false against the variable order (C68_refuted_assoc)."
  },
  {
   "property": "C69",
   "status": "proved",
   "theorems": [
    "LBDD.C69_invisible",
    "LBDD.C69_traversals",
    "LBDD.C69_reads",
    "LBDD.C69_mark_one",
    "LBDD.C69_unmark_rec",
    "LBDD.C69_mark_all",
    "LBDD.C69_marks_stay",
    "LBDD.C69_refuted_inner_mark"
   ],
   "note": "C69_refuted_inner_mark shows that the exceptions in the statement are needed: a marked inner node makes nr_nodes() of a BDD above it wrong, and unmark_rec() on that BDD does not clear it."
  },
  {
   "property": "C70",
   "status": "proved",
   "theorems": [
    "LBDD.C70_print_text",
    "LBDD.C70_names",
    "LBDD.C70_same_text",
    "LBDD.C70_sinks"
   ],
   "note": ""
  },
  {
   "property": "C71",
   "status": "proved",
   "theorems": [
    "LBDD.C71_graphviz_text",
    "LBDD.C71_same_text"
   ],
   "note": "Entries without inner nodes are undefined behaviour (C58_graphviz_no_inner)."
  },
  {
   "property": "C72",
   "status": "proved",
   "theorems": [
    "LBDD.C72_and",
    "LBDD.C72_and_ordered",
    "LBDD.C72_or",
    "LBDD.C72_or_ordered",
    "LBDD.C72_xor",
    "LBDD.C72_limited",
    "LBDD.C72_limited_ordered",
    "LBDD.C72_negate",
    "LBDD.C72_ite",
    "LBDD.C72_ite_ordered",
    "LBDD.C72_depth_ordered",
    "LBDD.C72_traversal",
    "LBDD.C72_unmark",
    "LBDD.C72_queries"
   ],
   "note": "Calls of one recursive function inside another (negate inside xor_rec, or_rec/and_rec/xor_rec inside ite_rec, nr_nodes inside and_rec_limited) are counted separately, each with its own bound."
  },
  {
   "property": "C73",
   "status": "proved",
   "theorems": [
    "LBDD.C73_export_handle",
    "LBDD.C73_export_nothing",
    "LBDD.C73_import_handle",
    "LBDD.C73_and_agrees",
    "LBDD.C73_and_range_agrees"
   ],
   "note": "Without the restriction to histories that respect the order it is false (C73_refuted). mgr.add_bdd in debug builds only for entries that end before position 1002 (C41_refuted)."
  },
  {
   "property": "C74",
   "status": "proved",
   "theorems": [
    "LBDD.C74_raw",
    "LBDD.C74_entry_wrappers",
    "LBDD.C74_entry_and",
    "LBDD.C74_entry_at"
   ],
   "note": "get_reverse_bdd_instructions returns the forward range (C74_refuted_reverse)."
  },
  {
   "property": "C75",
   "status": "proved",
   "theorems": [
    "LBDD.C75_step",
    "LBDD.C75_histories",
    "LBDD.C75_exact",
    "LBDD.C75_operators",
    "LBDD.C75_add_bdd"
   ],
   "note": "The program with all temporaries (Model/Temps) is a second model of every function of the manager; collect_garbage creates no handles."
  },
  {
   "property": "C76",
   "status": "proved",
   "theorems": [
    "LBDD.C76_counts",
    "LBDD.C76_negate_calls",
    "LBDD.C76_parity",
    "LBDD.C76_concrete"
   ],
   "note": "Calls are counted by a second version of the function (Model/Cost) that is proved to be the function of the other properties with a counter (C76_counts)."
  },
  {
   "property": "C77",
   "status": "proved",
   "theorems": [
    "LBDD.C77_counts",
    "LBDD.C77_unsat",
    "LBDD.C77_contradiction",
    "LBDD.C77_range_unsat",
    "LBDD.C77_range_concrete",
    "LBDD.C77_first",
    "LBDD.C77_parity",
    "LBDD.C77_parity_contradiction",
    "LBDD.C77_concrete",
    "LBDD.C77_first_concrete"
   ],
   "note": "Exact numbers for operands without a common solution (two operands and sequences) and a lower bound for others."
  },
  {
   "property": "C78",
   "status": "proved",
   "theorems": [
    "LBDD.C78_counts",
    "LBDD.C78_nr_nodes",
    "LBDD.C78_postorder",
    "LBDD.C78_bfs",
    "LBDD.C78_variables",
    "LBDD.C78_concrete"
   ],
   "note": ""
  },
  {
   "property": "C79",
   "status": "proved",
   "theorems": [
    "LBDD.C79_and",
    "LBDD.C79_and_ordered",
    "LBDD.C79_range",
    "LBDD.C79_range_ordered",
    "LBDD.C79_depth",
    "LBDD.C79_concrete"
   ],
   "note": "bddAndWithin (Spec/CollNest) is bdd_and with room for n nested calls; the bound is sharp (C79_concrete)."
  },
  {
   "property": "C80",
   "status": "proved",
   "theorems": [
    "LBDD.C80_nr_nodes",
    "LBDD.C80_postorder",
    "LBDD.C80_same_size",
    "LBDD.C80_entry",
    "LBDD.C80_minimal",
    "LBDD.C80_concrete",
    "LBDD.C80_entry_concrete",
    "LBDD.C80_refuted"
   ],
   "note": "Fails with xor_rec (C80_refuted), as ordering does."
  },
  {
   "property": "C81",
   "status": "partial",
   "theorems": [
    "LBDD.C81_store_partial",
    "LBDD.C81_step_partial",
    "LBDD.C81_equal_partial",
    "LBDD.C81_any_store_partial",
    "LBDD.C81_any_step_partial",
    "LBDD.C81_any_concrete",
    "LBDD.C81_concrete",
    "LBDD.C81_refuted"
   ],
   "note": "Proved for all histories that do not combine xor_rec with or_rec/ite_rec/functions built on them; with both the property is false (C81_refuted, finding 1), and the store still has the functions of Fn.WeakMeans (Spec/StoreMixed; C81_any_store_partial): or_rec and xor_rec give at each assignment one of the two disjunctions, ite_rec and import may be wrongly false, the counting functions are never wrongly true, and all other functions are exact. Calls that throw, fail an assertion or diverge end the history; when they do is the subject of the properties of the single functions."
  },
  {
   "property": "C82",
   "status": "partial",
   "theorems": [
    "LBDD.C82_system_partial",
    "LBDD.C82_step_partial",
    "LBDD.C82_any_system_partial",
    "LBDD.C82_any_step_partial",
    "LBDD.C82_any_concrete",
    "LBDD.C82_concrete",
    "LBDD.C82_refuted"
   ],
   "note": "Proved for all histories that do not combine xor_rec with or_rec/ite_rec (with both the property is false, C82_refuted, and C82_any_system_partial says what remains true: Fn.WeakMeans for the manager, an import may be wrongly false, the collection is exact), and without saying what a contradictory conjunction in a collection evaluates to (in release builds: to true, C42_contradiction, finding 8). Steps that throw, fail an assertion or diverge end the history; when they do is the subject of C37-C51. bdd_or_var only where it has nothing to reduce (C50)."
  },
  {
   "property": "C83",
   "status": "partial",
   "theorems": [
    "LBDD.C83_progress_partial",
    "LBDD.C83_coll_partial",
    "LBDD.C83_system_partial",
    "LBDD.C83_total_partial",
    "LBDD.C83_needed",
    "LBDD.C83_coll_needed",
    "LBDD.C83_concrete",
    "LBDD.C83_refuted"
   ],
   "note": "Proved for calls that also avoid the known defects (Op.Safe, SOp.Safe in Spec/Safe.lean): last variable both in condition and branch of ite_rec, low/high of sinks, export of constant entries, constant conjunctions and limits below 3 in debug builds, more than 49 operands, remove without the last entry, debug position limit of add_bdd, garbage collections outside GcSafe. Except for ite_rec, and_rec with a limit, add_bdd and garbage collection these conditions are also necessary (C83_needed, C83_coll_needed). Without them the property is false (C83_refuted, C33_refuted, C41_refuted, C42_refuted)."
  },
  {
   "property": "C84",
   "status": "proved",
   "theorems": [
    "LBDD.C84_counts",
    "LBDD.C84_and",
    "LBDD.C84_or",
    "LBDD.C84_xor",
    "LBDD.C84_ite",
    "LBDD.C84_ordered",
    "LBDD.C84_concrete",
    "LBDD.C84_ite_concrete"
   ],
   "note": "Calls of the function itself; calls of negate within xor_rec and of or_rec, and_rec and xor_rec within ite_rec are covered by C76 and by the theorems for these functions. The counter of overwritten entries counts those of the functions called, too."
  },
  {
   "property": "C85",
   "status": "proved",
   "theorems": [
    "LBDD.C85_answers",
    "LBDD.C85_unique",
    "LBDD.C85_same_answers",
    "LBDD.C85_two_runs",
    "LBDD.C85_concrete",
    "LBDD.C85_two_runs_concrete",
    "LBDD.C85_refuted"
   ],
   "note": "For ordered histories, as the property says; with xor_rec it fails (C85_refuted)."
  },
  {
   "property": "C86",
   "status": "proved",
   "theorems": [
    "LBDD.C86_per_variable",
    "LBDD.C86_nodes",
    "LBDD.C86_counts",
    "LBDD.C86_no_overflow",
    "LBDD.C86_attained",
    "LBDD.C86_full",
    "LBDD.C86_concrete"
   ],
   "note": "About states between calls; what the temporary handles inside a call add to a count and take away again is the subject of C75."
  },
  {
   "property": "C87",
   "status": "proved",
   "theorems": [
    "LBDD.C87_build",
    "LBDD.C87_same_handle",
    "LBDD.C87_laws",
    "LBDD.C87_decides",
    "LBDD.C87_valid_sat",
    "LBDD.C87_concrete"
   ],
   "note": "For histories that respect the variable order and do not use xor_rec, as the property says. Building throws if a node table is full (Returns)."
  },
  {
   "property": "C88",
   "status": "proved",
   "theorems": [
    "LBDD.C88_identity",
    "LBDD.C88_compose",
    "LBDD.C88_inverse",
    "LBDD.C88_size",
    "LBDD.C88_formula",
    "LBDD.C88_concrete",
    "LBDD.C88_formula_concrete"
   ],
   "note": "rebase with a map (the overload with a vector gives the same handle: C29). On constants in debug builds the marks of the sinks have to be clear (finding on uninitialised marks)."
  },
  {
   "property": "C89",
   "status": "partial",
   "theorems": [
    "LBDD.C89_world_partial",
    "LBDD.C89_step_partial",
    "LBDD.C89_any_world_partial",
    "LBDD.C89_any_step_partial",
    "LBDD.C89_any_concrete",
    "LBDD.C89_progress_partial",
    "LBDD.C89_total_partial",
    "LBDD.C89_total_concrete",
    "LBDD.C89_transfer",
    "LBDD.C89_transfer_handle",
    "LBDD.C89_import",
    "LBDD.C89_concrete"
   ],
   "note": "C89_world_partial for managers that do not combine xor_rec with or_rec/ite_rec (otherwise false already for one manager, C81_refuted, C82_refuted); C89_any_world_partial for every program: the managers that do keep the weak guarantees of Fn.WeakMeans, all others and all collections are exact. C89_total_partial: with the conditions of C83 every step of a program succeeds and does this, or throws because a variable has more than 2^18 nodes. Transfers: every history. mgr.add_bdd in histories without xor_rec, in debug builds for collections of at most 1002 instructions (C41_refuted)."
  },
  {
   "property": "C90",
   "status": "proved",
   "theorems": [
    "LBDD.C90_invisible",
    "LBDD.C90_same_answers",
    "LBDD.C90_store",
    "LBDD.C90_right",
    "LBDD.C90_concrete",
    "LBDD.C90_right_concrete"
   ],
   "note": "Collections that return, in every discipline; C90_right for ordered histories. No calls that create nodes between the collections and the questions, as the property says."
  },
  {
   "property": "C91",
   "status": "proved",
   "theorems": [
    "LBDD.C91_answered",
    "LBDD.C91_no_change",
    "LBDD.C91_ends",
    "LBDD.C91_no_trace",
    "LBDD.C91_concrete"
   ],
   "note": "nr_nodes of a sink in a debug build where the uninitialised mark of the sink is set fails an assertion (finding on uninitialised marks): not an admissible question."
  },
  {
   "property": "C92",
   "status": "proved",
   "theorems": [
    "LBDD.C92_unharmed",
    "LBDD.C92_handle",
    "LBDD.C92_answered",
    "LBDD.C92_concrete"
   ],
   "note": "Calls admissible as in C83 (Legal and Safe). After the exception handle operations and questions; calls that create nodes of the full variable and collections can be undefined behaviour (C12_refuted)."
  }
 ]
}