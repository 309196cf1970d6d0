NOXOR="Proved for histories without xor_rec (or_rec and xor_rec share memo entries: C02_refuted)."
claim('C01','proved',['C01_and_correct'],'')
claim('C02','partial',['C02_or_correct_partial','C02_or_mixed_partial','C02_refuted'],NOXOR+' False in general; in mixed histories the result is still right wherever not both operands are true (C02_or_mixed_partial).')
claim('C03','proved',['C03_negate_correct'],'')
claim('C04','partial',['C04_xor_correct_partial','C04_xor_mixed_partial','C04_refuted'],'Proved for histories without or_rec/ite_rec; false in general. In mixed histories the result is still right wherever not both operands are true.')
claim('C05','partial',['C05_ite_correct_partial','C05_ite_if_returns_partial','C05_ite_mixed_partial','C05_refuted'],'Proved when the last variable is absent from the condition or from both branches (otherwise undefined behaviour, C05_refuted); whenever the call returns the result is right.')
claim('C06','proved',['C06_projection_correct','C06_negProjection_correct','C06_addVariable_correct','C06_undeclared'],'C06_undeclared: neg_projection and unique_find do not create variables.')
claim('C07','partial',['C07_canonical_partial','C07_equal_nodes_equal_handles','C07_refuted'],'Proved for histories that respect the variable order and do not use xor_rec; xor_rec breaks it.')
claim('C08','partial',['C08_ordered_partial','C08_refuted'],'As C07.')
claim('C09','proved',['C09_handles_stable'],'')
claim('C10','proved',['C10_no_duplicates','C10_unique_find'],'')
claim('C11','proved',['C11_lookup_exact','C11_insert_terminates','C11_growth_exact'],'')
claim('C12','partial',['C12_exception_partial','capacity_reached','C12_refuted'],'The exception occurs only when a variable has more than 2^18 nodes and changes no BDD, but the manager is unusable afterwards (handles and questions still work: C92).')
claim('C13','partial',['C13_lookup_exact','C13_insert_found','C13_growth_lossless','C13_reachable_growth_lossless','C13_and_entries_true','C13_or_entries_true_partial','C13_transparent_partial','C13_refuted_limited','C13_refuted_mixed','C23_refuted_null'],'Exactness and losslessness proved; independence of all results of the cache (a process losing arbitrary entries between calls sees the same results) proved for histories without a node limit that do not mix or_rec and xor_rec, refuted for both exceptions.')
claim('C15','partial',['C15_and_range','C15_or_range_partial','C15_xor_range_partial','C15_and_variadic','C15_or_variadic_partial','C15_xor_variadic_partial','C15_or_range_mixed_partial','C15_xor_range_mixed_partial','C15_or_variadic_mixed_partial','C15_xor_variadic_mixed_partial','C15_or_refuted','C15_xor_refuted'],'Conjunctions in every history; disjunction and parity in histories that do not mix or and xor, and in every history wherever at most one operand is true. False otherwise (the refutations).')
claim('C16','proved',['C16_all_false','C16_at_least_one'],'')
claim('C17','partial',['C17_simplex_partial','C17_at_most_one_partial','C17_simplex_mixed_partial','C17_at_most_one_mixed_partial','C17_at_most_one_refuted','C17_simplex_refuted'],NOXOR+' False otherwise (the refutations), but never wrongly true, in any history (the mixed theorems).')
claim('C18','partial',['C18_at_least_partial','C18_at_least_mixed_partial','C18_refuted'],NOXOR+' False otherwise (C18_refuted); in every history the result is never wrongly true, and it is right wherever at most b elements are true (C18_at_least_mixed_partial).')
claim('C19','partial',['C19_at_most_partial','C19_large_bound','C19_at_most_mixed_partial','C19_refuted'],'Proved for b <= n (histories without xor_rec); for b > n the result is constant false. In every history the result is never wrongly true, and for b <= n right wherever at least b elements are true (C19_at_most_mixed_partial).')
claim('C20','proved',['C20_cardinality'],'In every history, mixed ones included.')
claim('C21','partial',['C21_simplex_cardinality_partial','C21_at_least_one_partial','C21_at_most_one_partial','C21_range_variadic_partial','C21_laws_partial','C21_refuted'],'For histories that respect the variable order and do not use xor_rec.')
claim('C22','proved',['C22_limited_correct','C22_limited_returns'],'')
claim('C23','partial',['C22_limited_correct','C23_count_partial','C23_wide_limit_partial','C23_same_partial','C23_concrete','C23_refuted','C23_refuted_null','C23_refuted_zero','C23_refuted_repeat'],'False as stated: the count is not the number of nodes (with limit 0 a conjunction of 2 nodes is returned with count 0), null is returned although the conjunction is small enough, and repeating a successful call gives null. Proved: a non-null result is the conjunction; the count does not exceed the limit unless an operand is the constant true; null is not returned when the limit is at least the product of the numbers of paths of the operands (ordered histories); exactness for equal operands.')
claim('C24','proved',['C24_nr_nodes','ListsOnce.length_unique','C24_assert'],'On a sink, only in builds where the uninitialised mark bit is harmless (C24_assert).')
claim('C25','proved',['C25_nodes_postorder','C25_exact'],'As C24 for sinks.')
claim('C26','proved',['C26_nodes_bfs','C26_exact','C26_order_unique'],'')
claim('C27','proved',['C27_variables_support','C27_variables_occurring'],'')
claim('C28','proved',['C28_exactly_one_solution'],'')
claim('C29','proved',['C29_rebase_map','C29_rebase_vec','C29_overloads_agree'],'')
claim('C30','proved',['C30_xref_exact','C30_all_counted','C30_held_live'],'')
claim('C36','proved',['C36_pool','C36_mgr_nr_nodes'],'')
claim('C38','proved',['C38_page_large','C38_pages_exchanged'],'C38_page_large: the manager model in every reachable state; C38_pages_exchanged: the pools, with pages wandering between them.')
claim('C54','partial',['C54_sinks_distinct_partial','C54_refuted'],'Proved for indices below 2^41-2; false for the two largest accepted indices.')
claim('C56','proved',['C56_find_bdd_mgr'],'')
claim('C57','proved',['C57_and_vars','C57_or_vars','C57_xor_vars','C57_negate_vars','C57_ite_vars'],'')
claim('C39','proved',['C39_add_bdd'],'')
claim('C40','proved',['C40_round_trip','C40_export_any'],'')
claim('C41','partial',['C41_import_partial','C41_debug_limit','C41_refuted'],'In debug builds only while every child offset stays below 1000 (an assert); beyond that the call aborts.')
claim('C42','partial',['C42_and_partial','C42_contradiction','C42_refuted'],'Proved for satisfiable conjunctions; a contradiction yields an entry that evaluates to true (NDEBUG) or an assertion failure.')
claim('C43','proved',['C43_limit_exact'],'')
claim('C44','partial',['C44_and_range_partial','C44_contradiction','C44_other_lengths'],'Proved for satisfiable conjunctions of 1..49 operands; see C42 for contradictions.')
claim('C45','proved',['C45_and_structure','C45_and_range_structure'],'')
claim('C46','proved',['C46_and_keeps','C46_add_keeps','C46_rebase_keeps'],'')
claim('C47','partial',['C47_remove_partial','C47_remove_nothing','C47_remove_other','C47_refuted'],'Proved when the last entry is among those removed (or nothing is removed); otherwise remove reads past the end of its input range: C47_remove_other.')
claim('C48','proved',['C48_rebase_vec','C48_rebase_map','C48_overloads_agree'],'')
claim('C49','proved',['C49_queries'],'')
claim('C51','partial',['C51_sinks_partial','C51_and_exchanged','C51_refuted'],'Holds for entries made by add_bdd; every entry made by bdd_and has its sinks exchanged.')
claim('C58','partial',['C58_print','C58_print_exact','C58_graphviz','C58_graphviz_no_inner'],'export_graphviz of an entry without inner nodes (possible in release builds only) reads out of range.')
claim('C31','partial',['C31_gc_keeps_partial','C31_refuted_stale_handle','C31_refuted_double_free'],'Every collection that returns keeps everything reachable from held handles, for every table layout and after any number of earlier collections; but a manager call after an unsafe collection can hand out a freed node (C31_refuted_stale_handle), and a collection can free a node twice (C31_refuted_double_free).')
claim('C32','partial',['C32_gc_complete_partial','C32_stored_partial','C32_refuted'],'Proved where the garbage is isolated in the unique tables (GcSafe); false in general: dead followers are unlinked but never freed. For every collection that returns in histories that respect the order, whatever the layout: every node still stored in a unique table is in use and held or a child of a node in use.')
claim('C33','partial',['C33_gc_returns_partial','C33_gc_no_garbage','C33_single_garbage','C33_first_garbage_hangs','C33_refuted'],'Proved where the garbage is isolated (GcSafe) and when there is no garbage; with exactly one node of garbage it is decided for every table layout whether the collection returns, crashes or loops for ever (C33_single_garbage); false in general: a whole class of states from which the collection never returns (C33_first_garbage_hangs), and a concrete one.')
claim('C34','partial',['C34_after_gc_partial','C34_and_after_gc_partial','C34_or_after_gc_partial','C34_refuted','C34_refuted_freed'],'Proved when no memo entry mentions garbage (GcSafe); false in general: the memo cache is never purged, and returns freed or re-used nodes.')
claim('C35','partial',['C35_not_shrunk_partial','C35_never_shrunk_partial','C35_found_partial','C35_shrink_crashes','C35_gc_crashes','C35_refuted'],'Shrinking a unique table always crashes (for every address assignment and every hash keys), so that a collection that returns has shrunk none (C35_never_shrunk_partial, every history); after it, in histories that respect the order, every node still needed is found by unique_find, whatever the layout of the tables (C35_found_partial).')
claim('C37','proved',['C37_reserve','C37_free','C37_pages'],'')
claim('C53','proved',['C53_depth','C53_recorded','C53_again','C53_refuted_gc'],'Histories may contain collect_garbage while all recorded nodes are needed; the table keeps the depth of a freed node, which is wrong for the node that takes its place (C53_refuted_gc).')
claim('C55','partial',['C55_destroy_partial','C55_destroy_release_partial','C55_refuted'],'Proved for histories that respect the variable order (debug and release builds) and for all histories in release builds; false in debug builds for histories with xor_rec.')

claim('C14','partial',['C14_same_results_partial','C14_refuted_limited','C14_refuted_mixed','C14_refuted_gc'],'Proved for every history that does not use both or_rec-family and xor_rec calls and does not call and_rec with a node limit (node counts of single BDDs always; the total count, in histories that do not respect the variable order, only without garbage collection: C14_refuted_gc). Refuted for and_rec with a node limit (its give-up decision depends on memo collisions, C14_refuted_limited) and for histories mixing or_rec and xor_rec, which share memo entries (C14_refuted_mixed).')
claim('C50','partial',['C50_or_var_partial','C50_paths','C50_ignored','C50_returned','C50_debug','C50_many_removed','C50_crash','C50_refuted','C50_refuted_crash','C50_refuted_root','C50_refuted_wrap'],'Exact description of the result (C50_paths: only paths that test a listed variable are rerouted) when reduce() has nothing to remove, and, for entries whose root is kept, whenever the call returns: always in debug builds (C50_debug), in release builds if fewer than 128 nodes are lost (C50_returned); if 128 or more are lost the call returns in release builds only and the new entry always has a node with arcs out of range (C50_many_removed). C50_crash: a kept node with a dropped child makes the call undefined. The full claim is false: a variable the entry does not test is ignored (C50_refuted), a node removed below the root crashes (C50_refuted_crash), a removed root gives a wrong entry: not(x0 and x1) or x0 comes out as not x1 (C50_refuted_root), and with 128 removed nodes evaluate reads out of range (C50_refuted_wrap).')
claim('C52','partial',['C52_build_partial','C52_refuted_debug','C52_refuted_handle','C52_refuted_missing','C52_refuted_sinks','C52_refuted_first','C52_close_again','C52_missing_noticed_late'],'Proved for release builds, arcs set through collection[nr][k] and a last entry that stores its false sink first; all other cases are refuted: debug builds abort, the handle returned by add_bdd_node dangles, missing arcs are not detected, the sinks are those of the previous entry, the first entry cannot be built.')

claim('C59','proved',['C59_navigate','C59_sinks'],'')
claim('C60','proved',['C60_postorder'],'')
claim('C61','proved',['C61_and','C61_or','C61_xor','C61_negate','C61_ite','C61_projection','C61_negProjection','C61_unique_find'],'For calls that return a BDD (ite_rec may be undefined, C05_refuted; a full table throws, C12).')
claim('C62','partial',['C62_and_repeat_partial','C62_or_repeat_partial','C62_negate_repeat_partial','C62_ite_repeat_partial','C62_refuted'],'For histories that respect the variable order and do not use xor_rec; false for BDDs built against the order (C62_refuted).')
claim('C63','partial',['C63_gc_twice_partial','C63_gc_twice_returns_partial','C63_returns_concrete','C63_refuted'],'False in general (C63_refuted). In histories that respect the variable order and do not use xor_rec, followed by any handle operations and collections: after every collection that returns, whatever the layout of the tables, a second one returns and changes nothing.')
claim('C64','partial',['C64_and_size','C64_or_size_partial','C64_xor_size_partial','C64_ite_size_partial','C64_negate_size','C64_combination_size_partial','C64_refuted_mixed','C64_refuted_combination'],'and_rec and negate: every history. or_rec and ite_rec: every history without xor_rec; xor_rec: every history without or_rec-family calls. Arbitrary combinations: histories that respect the variable order and do not use xor_rec. False for or_rec after xor_rec calls, whose results it finds in the memo cache (C64_refuted_mixed), and for combinations in histories with xor_rec (C64_refuted_combination).')
claim('C65','proved',['C65_sinks','C65_walk','C65_cofactors'],'')
claim('C66','partial',['C66_constants_partial','C66_sinks_constant','C66_refuted'],'For histories that respect the variable order and do not use xor_rec; false with xor_rec (C66_refuted).')
claim('C67','partial',['C67_repeat_partial','C67_and','C67_negate','C67_or_partial','C67_xor_partial','C67_ite_partial','C67_refuted_mixed'],'and_rec and negate: every history. Every function but the limited conjunction: every history that does not use both or_rec and xor_rec; false for those (C67_refuted_mixed).')
claim('C68','partial',['C68_negate_twice','C68_and_comm','C68_and_units','C68_or_units','C68_xor_units','C68_or_comm_partial','C68_de_morgan_partial','C68_xor_comm_partial','C68_refuted_mixed','C68_refuted_assoc'],'Laws of and_rec and negate and all laws with a constant or equal operands: every history. Commutativity of or_rec and De Morgan: histories without xor_rec; commutativity of xor_rec: histories without or_rec. De Morgan is false in histories that use both (C68_refuted_mixed); associativity is false against the variable order (C68_refuted_assoc).')
claim('C69','proved',['C69_invisible','C69_traversals','C69_reads','C69_mark_one','C69_unmark_rec','C69_mark_all','C69_marks_stay','C69_refuted_inner_mark'],'C69_refuted_inner_mark shows that the exceptions in the statement are needed: a marked inner node makes nr_nodes() of a BDD above it wrong, and unmark_rec() on that BDD does not clear it.')
claim('C70','proved',['C70_print_text','C70_names','C70_same_text','C70_sinks'],'')
claim('C71','proved',['C71_graphviz_text','C71_same_text'],'Entries without inner nodes are undefined behaviour (C58_graphviz_no_inner).')
claim('C72','proved',['C72_and','C72_and_ordered','C72_or','C72_or_ordered','C72_xor','C72_limited','C72_limited_ordered','C72_negate','C72_ite','C72_ite_ordered','C72_depth_ordered','C72_traversal','C72_unmark','C72_queries'],'Calls of one recursive function inside another (negate inside xor_rec, or_rec/and_rec/xor_rec inside ite_rec, nr_nodes inside and_rec_limited) are counted separately, each with its own bound.')
claim('C73','proved',['C73_export_handle','C73_export_nothing','C73_import_handle','C73_and_agrees','C73_and_range_agrees'],'Without the restriction to histories that respect the order it is false (C73_refuted). mgr.add_bdd in debug builds only for entries that end before position 1002 (C41_refuted).')
claim('C74','proved',['C74_raw','C74_entry_wrappers','C74_entry_and','C74_entry_at'],'get_reverse_bdd_instructions returns the forward range (C74_refuted_reverse).')
claim('C75','proved',['C75_step','C75_histories','C75_exact','C75_operators','C75_add_bdd'],'The program with all temporaries (Model/Temps) is a second model of every function of the manager; collect_garbage creates no handles.')
claim('C76','proved',['C76_counts','C76_negate_calls','C76_parity','C76_concrete'],'Calls are counted by a second version of the function (Model/Cost) that is proved to be the function of the other properties with a counter (C76_counts).')
claim('C77','proved',['C77_counts','C77_unsat','C77_contradiction','C77_range_unsat','C77_range_concrete','C77_first','C77_parity','C77_parity_contradiction','C77_concrete','C77_first_concrete'],'Exact numbers for operands without a common solution (two operands and sequences) and a lower bound for others.')
claim('C78','proved',['C78_counts','C78_nr_nodes','C78_postorder','C78_bfs','C78_variables','C78_concrete'],'')
claim('C79','proved',['C79_and','C79_and_ordered','C79_range','C79_range_ordered','C79_depth','C79_concrete'],'bddAndWithin (Spec/CollNest) is bdd_and with room for n nested calls; the bound is sharp (C79_concrete).')
claim('C80','proved',['C80_nr_nodes','C80_postorder','C80_same_size','C80_entry','C80_minimal','C80_concrete','C80_entry_concrete','C80_refuted'],'Fails with xor_rec (C80_refuted), as ordering does.')
claim('C81','partial',['C81_store_partial','C81_step_partial','C81_equal_partial','C81_any_store_partial','C81_any_step_partial','C81_any_concrete','C81_concrete','C81_refuted'],'Proved for all histories that do not combine xor_rec with or_rec/ite_rec/functions built on them; with both the property is false (C81_refuted, finding 1), and the store still has the functions of Fn.WeakMeans (Spec/StoreMixed; C81_any_store_partial): or_rec and xor_rec give at each assignment one of the two disjunctions, ite_rec and import may be wrongly false, the counting functions are never wrongly true, and all other functions are exact. Calls that throw, fail an assertion or diverge end the history; when they do is the subject of the properties of the single functions.')
claim('C82','partial',['C82_system_partial','C82_step_partial','C82_any_system_partial','C82_any_step_partial','C82_any_concrete','C82_concrete','C82_refuted'],'Proved for all histories that do not combine xor_rec with or_rec/ite_rec (with both the property is false, C82_refuted, and C82_any_system_partial says what remains true: Fn.WeakMeans for the manager, an import may be wrongly false, the collection is exact), and without saying what a contradictory conjunction in a collection evaluates to (in release builds: to true, C42_contradiction, finding 8). Steps that throw, fail an assertion or diverge end the history; when they do is the subject of C37-C51. bdd_or_var only where it has nothing to reduce (C50).')
claim('C83','partial',['C83_progress_partial','C83_coll_partial','C83_system_partial','C83_total_partial','C83_needed','C83_coll_needed','C83_concrete','C83_refuted'],'Proved for calls that also avoid the known defects (Op.Safe, SOp.Safe in Spec/Safe.lean): last variable both in condition and branch of ite_rec, low/high of sinks, export of constant entries, constant conjunctions and limits below 3 in debug builds, more than 49 operands, remove without the last entry, debug position limit of add_bdd, garbage collections outside GcSafe. Except for ite_rec, and_rec with a limit, add_bdd and garbage collection these conditions are also necessary (C83_needed, C83_coll_needed). Without them the property is false (C83_refuted, C33_refuted, C41_refuted, C42_refuted).')
claim('C84','proved',['C84_counts','C84_and','C84_or','C84_xor','C84_ite','C84_ordered','C84_concrete','C84_ite_concrete'],'Calls of the function itself; calls of negate within xor_rec and of or_rec, and_rec and xor_rec within ite_rec are covered by C76 and by the theorems for these functions. The counter of overwritten entries counts those of the functions called, too.')
claim('C85','proved',['C85_answers','C85_unique','C85_same_answers','C85_two_runs','C85_concrete','C85_two_runs_concrete','C85_refuted'],'For ordered histories, as the property says; with xor_rec it fails (C85_refuted).')
claim('C86','proved',['C86_per_variable','C86_nodes','C86_counts','C86_no_overflow','C86_attained','C86_full','C86_concrete'],'About states between calls; what the temporary handles inside a call add to a count and take away again is the subject of C75.')
claim('C87','proved',['C87_build','C87_same_handle','C87_laws','C87_decides','C87_valid_sat','C87_concrete'],'For histories that respect the variable order and do not use xor_rec, as the property says. Building throws if a node table is full (Returns).')
claim('C88','proved',['C88_identity','C88_compose','C88_inverse','C88_size','C88_formula','C88_concrete','C88_formula_concrete'],'rebase with a map (the overload with a vector gives the same handle: C29). On constants in debug builds the marks of the sinks have to be clear (finding on uninitialised marks).')
claim('C89','partial',['C89_world_partial','C89_step_partial','C89_any_world_partial','C89_any_step_partial','C89_any_concrete','C89_progress_partial','C89_total_partial','C89_total_concrete','C89_transfer','C89_transfer_handle','C89_import','C89_concrete'],'C89_world_partial for managers that do not combine xor_rec with or_rec/ite_rec (otherwise false already for one manager, C81_refuted, C82_refuted); C89_any_world_partial for every program: the managers that do keep the weak guarantees of Fn.WeakMeans, all others and all collections are exact. C89_total_partial: with the conditions of C83 every step of a program succeeds and does this, or throws because a variable has more than 2^18 nodes. Transfers: every history. mgr.add_bdd in histories without xor_rec, in debug builds for collections of at most 1002 instructions (C41_refuted).')
claim('C90','proved',['C90_invisible','C90_same_answers','C90_store','C90_right','C90_concrete','C90_right_concrete'],'Collections that return, in every discipline; C90_right for ordered histories. No calls that create nodes between the collections and the questions, as the property says.')
claim('C91','proved',['C91_answered','C91_no_change','C91_ends','C91_no_trace','C91_concrete'],'nr_nodes of a sink in a debug build where the uninitialised mark of the sink is set fails an assertion (finding on uninitialised marks): not an admissible question.')
claim('C92','proved',['C92_unharmed','C92_handle','C92_answered','C92_concrete'],'Calls admissible as in C83 (Legal and Safe). After the exception handle operations and questions; calls that create nodes of the full variable and collections can be undefined behaviour (C12_refuted).')
