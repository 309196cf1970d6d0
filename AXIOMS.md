# Axioms each theorem of MANIFEST.json depends on

Generated by tools/axioms.sh (`#print axioms`).

* `LBDD.C01_and_correct`: [propext, Classical.choice, Quot.sound]
* `LBDD.C02_or_correct_partial`: [propext, Classical.choice, Quot.sound]
* `LBDD.C02_or_mixed_partial`: [propext, Classical.choice, Quot.sound]
* `LBDD.C02_refuted`: [propext, Classical.choice, Quot.sound]
* `LBDD.C03_negate_correct`: [propext, Classical.choice, Quot.sound]
* `LBDD.C04_xor_correct_partial`: [propext, Classical.choice, Quot.sound]
* `LBDD.C04_xor_mixed_partial`: [propext, Classical.choice, Quot.sound]
* `LBDD.C04_refuted`: [propext, Classical.choice, Quot.sound]
* `LBDD.C05_ite_correct_partial`: [propext, Classical.choice, Quot.sound]
* `LBDD.C05_ite_if_returns_partial`: [propext, Classical.choice, Quot.sound]
* `LBDD.C05_ite_mixed_partial`: [propext, Classical.choice, Quot.sound]
* `LBDD.C05_refuted`: [propext, Classical.choice, Quot.sound]
* `LBDD.C06_projection_correct`: [propext, Classical.choice, Quot.sound]
* `LBDD.C06_negProjection_correct`: [propext, Classical.choice, Quot.sound]
* `LBDD.C06_addVariable_correct`: [propext, Classical.choice, Quot.sound]
* `LBDD.C06_undeclared`: [propext]
* `LBDD.C07_canonical_partial`: [propext, Classical.choice, Quot.sound]
* `LBDD.C07_equal_nodes_equal_handles`: [propext, Classical.choice, Quot.sound]
* `LBDD.C07_refuted`: [propext, Classical.choice, Quot.sound]
* `LBDD.C08_ordered_partial`: [propext, Classical.choice, Quot.sound]
* `LBDD.C08_refuted`: [propext, Classical.choice, Quot.sound]
* `LBDD.C09_handles_stable`: [propext, Classical.choice, Quot.sound]
* `LBDD.C10_no_duplicates`: [propext, Classical.choice, Quot.sound]
* `LBDD.C10_unique_find`: [propext, Classical.choice, Quot.sound]
* `LBDD.C11_lookup_exact`: [propext, Classical.choice, Quot.sound]
* `LBDD.C11_insert_terminates`: [propext, Classical.choice, Quot.sound]
* `LBDD.C11_growth_exact`: [propext, Classical.choice, Quot.sound]
* `LBDD.C12_exception_partial`: [propext, Classical.choice, Quot.sound]
* `LBDD.capacity_reached`: [propext, Classical.choice, Quot.sound]
* `LBDD.C12_refuted`: [propext, Classical.choice, Quot.sound]
* `LBDD.C13_lookup_exact`: [propext, Classical.choice, Quot.sound]
* `LBDD.C13_insert_found`: [propext, Classical.choice, Quot.sound]
* `LBDD.C13_growth_lossless`: [propext, Classical.choice, Quot.sound]
* `LBDD.C13_reachable_growth_lossless`: [propext, Classical.choice, Quot.sound]
* `LBDD.C13_and_entries_true`: [propext, Classical.choice, Quot.sound]
* `LBDD.C13_or_entries_true_partial`: [propext, Classical.choice, Quot.sound]
* `LBDD.C13_transparent_partial`: [propext, Classical.choice, Quot.sound]
* `LBDD.C13_refuted_limited`: [propext, Classical.choice, Quot.sound]
* `LBDD.C13_refuted_mixed`: [propext, Classical.choice, Quot.sound]
* `LBDD.C23_refuted_null`: [propext, Classical.choice, Quot.sound]
* `LBDD.C14_same_results_partial`: [propext, Classical.choice, Quot.sound]
* `LBDD.C14_refuted_limited`: [propext, Classical.choice, Quot.sound]
* `LBDD.C14_refuted_mixed`: [propext, Classical.choice, Quot.sound]
* `LBDD.C14_refuted_gc`: [propext, Classical.choice, Quot.sound]
* `LBDD.C15_and_range`: [propext, Classical.choice, Quot.sound]
* `LBDD.C15_or_range_partial`: [propext, Classical.choice, Quot.sound]
* `LBDD.C15_xor_range_partial`: [propext, Classical.choice, Quot.sound]
* `LBDD.C15_and_variadic`: [propext, Classical.choice, Quot.sound]
* `LBDD.C15_or_variadic_partial`: [propext, Classical.choice, Quot.sound]
* `LBDD.C15_xor_variadic_partial`: [propext, Classical.choice, Quot.sound]
* `LBDD.C15_or_range_mixed_partial`: [propext, Classical.choice, Quot.sound]
* `LBDD.C15_xor_range_mixed_partial`: [propext, Classical.choice, Quot.sound]
* `LBDD.C15_or_variadic_mixed_partial`: [propext, Classical.choice, Quot.sound]
* `LBDD.C15_xor_variadic_mixed_partial`: [propext, Classical.choice, Quot.sound]
* `LBDD.C15_or_refuted`: [propext, Classical.choice, Quot.sound]
* `LBDD.C15_xor_refuted`: [propext, Classical.choice, Quot.sound]
* `LBDD.C16_all_false`: [propext, Classical.choice, Quot.sound]
* `LBDD.C16_at_least_one`: [propext, Classical.choice, Quot.sound]
* `LBDD.C17_simplex_partial`: [propext, Classical.choice, Quot.sound]
* `LBDD.C17_at_most_one_partial`: [propext, Classical.choice, Quot.sound]
* `LBDD.C17_simplex_mixed_partial`: [propext, Classical.choice, Quot.sound]
* `LBDD.C17_at_most_one_mixed_partial`: [propext, Classical.choice, Quot.sound]
* `LBDD.C17_at_most_one_refuted`: [propext, Classical.choice, Quot.sound]
* `LBDD.C17_simplex_refuted`: [propext, Classical.choice, Quot.sound]
* `LBDD.C18_at_least_partial`: [propext, Classical.choice, Quot.sound]
* `LBDD.C18_at_least_mixed_partial`: [propext, Classical.choice, Quot.sound]
* `LBDD.C18_refuted`: [propext, Classical.choice, Quot.sound]
* `LBDD.C19_at_most_partial`: [propext, Classical.choice, Quot.sound]
* `LBDD.C19_large_bound`: [propext, Classical.choice, Quot.sound]
* `LBDD.C19_at_most_mixed_partial`: [propext, Classical.choice, Quot.sound]
* `LBDD.C19_refuted`: [propext, Classical.choice, Quot.sound]
* `LBDD.C20_cardinality`: [propext, Classical.choice, Quot.sound]
* `LBDD.C21_simplex_cardinality_partial`: [propext, Classical.choice, Quot.sound]
* `LBDD.C21_at_least_one_partial`: [propext, Classical.choice, Quot.sound]
* `LBDD.C21_at_most_one_partial`: [propext, Classical.choice, Quot.sound]
* `LBDD.C21_range_variadic_partial`: [propext, Classical.choice, Quot.sound]
* `LBDD.C21_laws_partial`: [propext, Classical.choice, Quot.sound]
* `LBDD.C21_refuted`: [propext, Classical.choice, Quot.sound]
* `LBDD.C22_limited_correct`: [propext, Classical.choice, Quot.sound]
* `LBDD.C22_limited_returns`: [propext, Classical.choice, Quot.sound]
* `LBDD.C23_count_partial`: [propext, Quot.sound]
* `LBDD.C23_wide_limit_partial`: [propext, Classical.choice, Quot.sound]
* `LBDD.C23_same_partial`: [propext, Classical.choice, Quot.sound]
* `LBDD.C23_concrete`: [propext, Classical.choice, Quot.sound]
* `LBDD.C23_refuted`: [propext, Classical.choice, Quot.sound]
* `LBDD.C23_refuted_zero`: [propext, Classical.choice, Quot.sound]
* `LBDD.C23_refuted_repeat`: [propext, Classical.choice, Quot.sound]
* `LBDD.C24_nr_nodes`: [propext, Classical.choice, Quot.sound]
* `LBDD.ListsOnce.length_unique`: [propext, Classical.choice, Quot.sound]
* `LBDD.C24_assert`: [propext, Classical.choice, Quot.sound]
* `LBDD.C25_nodes_postorder`: [propext, Classical.choice, Quot.sound]
* `LBDD.C25_exact`: [propext, Classical.choice, Quot.sound]
* `LBDD.C26_nodes_bfs`: [propext, Classical.choice, Quot.sound]
* `LBDD.C26_exact`: [propext, Classical.choice, Quot.sound]
* `LBDD.C26_order_unique`: [propext, Classical.choice, Quot.sound]
* `LBDD.C27_variables_support`: [propext, Classical.choice, Quot.sound]
* `LBDD.C27_variables_occurring`: [propext, Classical.choice, Quot.sound]
* `LBDD.C28_exactly_one_solution`: [propext, Classical.choice, Quot.sound]
* `LBDD.C29_rebase_map`: [propext, Classical.choice, Quot.sound]
* `LBDD.C29_rebase_vec`: [propext, Classical.choice, Quot.sound]
* `LBDD.C29_overloads_agree`: [propext, Classical.choice, Quot.sound]
* `LBDD.C30_xref_exact`: [propext, Classical.choice, Quot.sound]
* `LBDD.C30_all_counted`: [propext, Classical.choice, Quot.sound]
* `LBDD.C30_held_live`: [propext, Classical.choice, Quot.sound]
* `LBDD.C31_gc_keeps_partial`: [propext, Classical.choice, Quot.sound]
* `LBDD.C31_refuted_stale_handle`: [propext, Classical.choice, Quot.sound]
* `LBDD.C31_refuted_double_free`: [propext, Classical.choice, Quot.sound]
* `LBDD.C32_gc_complete_partial`: [propext, Classical.choice, Quot.sound]
* `LBDD.C32_stored_partial`: [propext, Classical.choice, Quot.sound]
* `LBDD.C32_refuted`: [propext, Classical.choice, Quot.sound]
* `LBDD.C33_gc_returns_partial`: [propext, Classical.choice, Quot.sound]
* `LBDD.C33_gc_no_garbage`: [propext, Classical.choice, Quot.sound]
* `LBDD.C33_single_garbage`: [propext, Classical.choice, Quot.sound]
* `LBDD.C33_first_garbage_hangs`: [propext, Classical.choice, Quot.sound]
* `LBDD.C33_refuted`: [propext, Classical.choice, Quot.sound]
* `LBDD.C34_after_gc_partial`: [propext, Classical.choice, Quot.sound]
* `LBDD.C34_and_after_gc_partial`: [propext, Classical.choice, Quot.sound]
* `LBDD.C34_or_after_gc_partial`: [propext, Classical.choice, Quot.sound]
* `LBDD.C34_refuted`: [propext, Classical.choice, Quot.sound]
* `LBDD.C34_refuted_freed`: [propext, Classical.choice, Quot.sound]
* `LBDD.C35_not_shrunk_partial`: [propext, Classical.choice, Quot.sound]
* `LBDD.C35_never_shrunk_partial`: [propext, Classical.choice, Quot.sound]
* `LBDD.C35_found_partial`: [propext, Classical.choice, Quot.sound]
* `LBDD.C35_shrink_crashes`: [propext, Quot.sound]
* `LBDD.C35_gc_crashes`: [propext, Classical.choice, Quot.sound]
* `LBDD.C35_refuted`: [propext, Classical.choice, Quot.sound]
* `LBDD.C36_pool`: [propext, Classical.choice, Quot.sound]
* `LBDD.C36_mgr_nr_nodes`: [propext, Classical.choice, Quot.sound]
* `LBDD.C37_reserve`: [propext, Classical.choice, Quot.sound]
* `LBDD.C37_free`: [propext, Classical.choice, Quot.sound]
* `LBDD.C37_pages`: [propext, Classical.choice, Quot.sound]
* `LBDD.C38_page_large`: [propext, Classical.choice, Quot.sound]
* `LBDD.C38_pages_exchanged`: [propext, Classical.choice, Quot.sound]
* `LBDD.C39_add_bdd`: [propext, Classical.choice, Quot.sound]
* `LBDD.C40_round_trip`: [propext, Classical.choice, Quot.sound]
* `LBDD.C40_export_any`: [propext, Classical.choice, Quot.sound]
* `LBDD.C41_import_partial`: [propext, Classical.choice, Quot.sound]
* `LBDD.C41_debug_limit`: [propext, Classical.choice, Quot.sound]
* `LBDD.C41_refuted`: [propext, Classical.choice, Quot.sound]
* `LBDD.C42_and_partial`: [propext, Classical.choice, Quot.sound]
* `LBDD.C42_contradiction`: [propext, Classical.choice, Quot.sound]
* `LBDD.C42_refuted`: [propext, Classical.choice, Quot.sound]
* `LBDD.C43_limit_exact`: [propext, Classical.choice, Quot.sound]
* `LBDD.C44_and_range_partial`: [propext, Classical.choice, Quot.sound]
* `LBDD.C44_contradiction`: [propext, Classical.choice, Quot.sound]
* `LBDD.C44_other_lengths`: [propext, Quot.sound]
* `LBDD.C45_and_structure`: [propext, Classical.choice, Quot.sound]
* `LBDD.C45_and_range_structure`: [propext, Classical.choice, Quot.sound]
* `LBDD.C46_and_keeps`: [propext, Classical.choice, Quot.sound]
* `LBDD.C46_add_keeps`: [propext, Classical.choice, Quot.sound]
* `LBDD.C46_rebase_keeps`: [propext, Classical.choice, Quot.sound]
* `LBDD.C47_remove_partial`: [propext, Classical.choice, Quot.sound]
* `LBDD.C47_remove_nothing`: [propext]
* `LBDD.C47_remove_other`: [propext, Classical.choice, Quot.sound]
* `LBDD.C47_refuted`: [propext, Classical.choice, Quot.sound]
* `LBDD.C48_rebase_vec`: [propext, Classical.choice, Quot.sound]
* `LBDD.C48_rebase_map`: [propext, Classical.choice, Quot.sound]
* `LBDD.C48_overloads_agree`: [propext, Classical.choice, Quot.sound]
* `LBDD.C49_queries`: [propext, Classical.choice, Quot.sound]
* `LBDD.C50_or_var_partial`: [propext, Classical.choice, Quot.sound]
* `LBDD.C50_paths`: [propext, Classical.choice, Quot.sound]
* `LBDD.C50_ignored`: [propext, Classical.choice, Quot.sound]
* `LBDD.C50_returned`: [propext, Classical.choice, Quot.sound]
* `LBDD.C50_debug`: [propext, Classical.choice, Quot.sound]
* `LBDD.C50_many_removed`: [propext, Classical.choice, Quot.sound]
* `LBDD.C50_crash`: [propext, Classical.choice, Quot.sound]
* `LBDD.C50_refuted`: [propext, Classical.choice, Quot.sound]
* `LBDD.C50_refuted_crash`: [propext, Classical.choice, Quot.sound]
* `LBDD.C50_refuted_root`: [propext, Classical.choice, Quot.sound]
* `LBDD.C50_refuted_wrap`: [propext, Classical.choice, Quot.sound]
* `LBDD.C51_sinks_partial`: [propext, Classical.choice, Quot.sound]
* `LBDD.C51_and_exchanged`: [propext, Classical.choice, Quot.sound]
* `LBDD.C51_refuted`: [propext, Classical.choice, Quot.sound]
* `LBDD.C52_build_partial`: [propext, Classical.choice, Quot.sound]
* `LBDD.C52_refuted_debug`: [propext, Classical.choice, Quot.sound]
* `LBDD.C52_refuted_handle`: [propext, Classical.choice, Quot.sound]
* `LBDD.C52_refuted_missing`: [propext, Classical.choice, Quot.sound]
* `LBDD.C52_refuted_sinks`: [propext, Classical.choice, Quot.sound]
* `LBDD.C52_refuted_first`: [propext, Quot.sound]
* `LBDD.C52_close_again`: [propext, Classical.choice, Quot.sound]
* `LBDD.C52_missing_noticed_late`: [propext, Classical.choice, Quot.sound]
* `LBDD.C53_depth`: [propext, Classical.choice, Quot.sound]
* `LBDD.C53_recorded`: [propext, Classical.choice, Quot.sound]
* `LBDD.C53_again`: [propext, Classical.choice, Quot.sound]
* `LBDD.C53_refuted_gc`: [propext, Classical.choice, Quot.sound]
* `LBDD.C54_sinks_distinct_partial`: [propext, Classical.choice, Quot.sound]
* `LBDD.C54_refuted`: [propext, Classical.choice, Quot.sound]
* `LBDD.C55_destroy_partial`: [propext, Classical.choice, Quot.sound]
* `LBDD.C55_destroy_release_partial`: [propext, Classical.choice, Quot.sound]
* `LBDD.C55_refuted`: [propext, Classical.choice, Quot.sound]
* `LBDD.C56_find_bdd_mgr`: [propext, Classical.choice, Quot.sound]
* `LBDD.C57_and_vars`: [propext, Classical.choice, Quot.sound]
* `LBDD.C57_or_vars`: [propext, Classical.choice, Quot.sound]
* `LBDD.C57_xor_vars`: [propext, Classical.choice, Quot.sound]
* `LBDD.C57_negate_vars`: [propext, Classical.choice, Quot.sound]
* `LBDD.C57_ite_vars`: [propext, Classical.choice, Quot.sound]
* `LBDD.C58_print`: [propext, Classical.choice, Quot.sound]
* `LBDD.C58_print_exact`: [propext, Classical.choice, Quot.sound]
* `LBDD.C58_graphviz`: [propext, Classical.choice, Quot.sound]
* `LBDD.C58_graphviz_no_inner`: [propext, Classical.choice, Quot.sound]
* `LBDD.C59_navigate`: [propext, Classical.choice, Quot.sound]
* `LBDD.C59_sinks`: [propext, Classical.choice, Quot.sound]
* `LBDD.C60_postorder`: [propext, Classical.choice, Quot.sound]
* `LBDD.C61_and`: [propext, Classical.choice, Quot.sound]
* `LBDD.C61_or`: [propext, Classical.choice, Quot.sound]
* `LBDD.C61_xor`: [propext, Classical.choice, Quot.sound]
* `LBDD.C61_negate`: [propext, Classical.choice, Quot.sound]
* `LBDD.C61_ite`: [propext, Classical.choice, Quot.sound]
* `LBDD.C61_projection`: [propext, Classical.choice, Quot.sound]
* `LBDD.C61_negProjection`: [propext, Classical.choice, Quot.sound]
* `LBDD.C61_unique_find`: [propext, Classical.choice, Quot.sound]
* `LBDD.C62_and_repeat_partial`: [propext, Classical.choice, Quot.sound]
* `LBDD.C62_or_repeat_partial`: [propext, Classical.choice, Quot.sound]
* `LBDD.C62_negate_repeat_partial`: [propext, Classical.choice, Quot.sound]
* `LBDD.C62_ite_repeat_partial`: [propext, Classical.choice, Quot.sound]
* `LBDD.C62_refuted`: [propext, Classical.choice, Quot.sound]
* `LBDD.C63_gc_twice_partial`: [propext, Classical.choice, Quot.sound]
* `LBDD.C63_gc_twice_returns_partial`: [propext, Classical.choice, Quot.sound]
* `LBDD.C63_returns_concrete`: [propext, Classical.choice, Quot.sound]
* `LBDD.C63_refuted`: [propext, Classical.choice, Quot.sound]
* `LBDD.C64_and_size`: [propext, Classical.choice, Quot.sound]
* `LBDD.C64_or_size_partial`: [propext, Classical.choice, Quot.sound]
* `LBDD.C64_xor_size_partial`: [propext, Classical.choice, Quot.sound]
* `LBDD.C64_ite_size_partial`: [propext, Classical.choice, Quot.sound]
* `LBDD.C64_negate_size`: [propext, Classical.choice, Quot.sound]
* `LBDD.C64_combination_size_partial`: [propext, Classical.choice, Quot.sound]
* `LBDD.C64_refuted_mixed`: [propext, Classical.choice, Quot.sound]
* `LBDD.C64_refuted_combination`: [propext, Classical.choice, Quot.sound]
* `LBDD.C65_sinks`: [propext, Classical.choice, Quot.sound]
* `LBDD.C65_walk`: [propext, Classical.choice, Quot.sound]
* `LBDD.C65_cofactors`: [propext, Classical.choice, Quot.sound]
* `LBDD.C66_constants_partial`: [propext, Classical.choice, Quot.sound]
* `LBDD.C66_sinks_constant`: [propext, Classical.choice, Quot.sound]
* `LBDD.C66_refuted`: [propext, Classical.choice, Quot.sound]
* `LBDD.C67_repeat_partial`: [propext, Classical.choice, Quot.sound]
* `LBDD.C67_and`: [propext, Classical.choice, Quot.sound]
* `LBDD.C67_negate`: [propext, Classical.choice, Quot.sound]
* `LBDD.C67_or_partial`: [propext, Classical.choice, Quot.sound]
* `LBDD.C67_xor_partial`: [propext, Classical.choice, Quot.sound]
* `LBDD.C67_ite_partial`: [propext, Classical.choice, Quot.sound]
* `LBDD.C67_refuted_mixed`: [propext, Classical.choice, Quot.sound]
* `LBDD.C68_negate_twice`: [propext, Classical.choice, Quot.sound]
* `LBDD.C68_and_comm`: [propext, Classical.choice, Quot.sound]
* `LBDD.C68_and_units`: [propext, Quot.sound]
* `LBDD.C68_or_units`: [propext, Quot.sound]
* `LBDD.C68_xor_units`: [propext, Quot.sound]
* `LBDD.C68_or_comm_partial`: [propext, Classical.choice, Quot.sound]
* `LBDD.C68_de_morgan_partial`: [propext, Classical.choice, Quot.sound]
* `LBDD.C68_xor_comm_partial`: [propext, Classical.choice, Quot.sound]
* `LBDD.C68_refuted_mixed`: [propext, Classical.choice, Quot.sound]
* `LBDD.C68_refuted_assoc`: [propext, Classical.choice, Quot.sound]
* `LBDD.C69_invisible`: [propext, Classical.choice, Quot.sound]
* `LBDD.C69_traversals`: [propext, Classical.choice, Quot.sound]
* `LBDD.C69_reads`: [propext, Classical.choice, Quot.sound]
* `LBDD.C69_mark_one`: [propext]
* `LBDD.C69_unmark_rec`: [propext, Classical.choice, Quot.sound]
* `LBDD.C69_mark_all`: [propext, Classical.choice, Quot.sound]
* `LBDD.C69_marks_stay`: [propext, Classical.choice, Quot.sound]
* `LBDD.C69_refuted_inner_mark`: [propext, Classical.choice, Quot.sound]
* `LBDD.C70_print_text`: [propext, Classical.choice, Quot.sound]
* `LBDD.C70_names`: none
* `LBDD.C70_same_text`: [propext, Classical.choice, Quot.sound]
* `LBDD.C70_sinks`: [propext, Classical.choice, Quot.sound]
* `LBDD.C71_graphviz_text`: [propext, Classical.choice, Quot.sound]
* `LBDD.C71_same_text`: [propext, Classical.choice, Quot.sound]
* `LBDD.C72_and`: [propext, Classical.choice, Quot.sound]
* `LBDD.C72_and_ordered`: [propext, Classical.choice, Quot.sound]
* `LBDD.C72_or`: [propext, Classical.choice, Quot.sound]
* `LBDD.C72_or_ordered`: [propext, Classical.choice, Quot.sound]
* `LBDD.C72_xor`: [propext, Classical.choice, Quot.sound]
* `LBDD.C72_limited`: [propext, Classical.choice, Quot.sound]
* `LBDD.C72_limited_ordered`: [propext, Classical.choice, Quot.sound]
* `LBDD.C72_negate`: [propext, Classical.choice, Quot.sound]
* `LBDD.C72_ite`: [propext, Classical.choice, Quot.sound]
* `LBDD.C72_ite_ordered`: [propext, Classical.choice, Quot.sound]
* `LBDD.C72_depth_ordered`: [propext, Classical.choice, Quot.sound]
* `LBDD.C72_traversal`: [propext, Classical.choice, Quot.sound]
* `LBDD.C72_unmark`: [propext, Classical.choice, Quot.sound]
* `LBDD.C72_queries`: [propext, Classical.choice, Quot.sound]
* `LBDD.C73_export_handle`: [propext, Classical.choice, Quot.sound]
* `LBDD.C73_export_nothing`: [propext, Classical.choice, Quot.sound]
* `LBDD.C73_import_handle`: [propext, Classical.choice, Quot.sound]
* `LBDD.C73_and_agrees`: [propext, Classical.choice, Quot.sound]
* `LBDD.C73_and_range_agrees`: [propext, Classical.choice, Quot.sound]
* `LBDD.C74_raw`: [propext, Classical.choice, Quot.sound]
* `LBDD.C74_entry_wrappers`: [propext, Quot.sound]
* `LBDD.C74_entry_and`: [propext, Classical.choice, Quot.sound]
* `LBDD.C74_entry_at`: [propext, Classical.choice, Quot.sound]
* `LBDD.C75_step`: [propext, Classical.choice, Quot.sound]
* `LBDD.C75_histories`: [propext, Classical.choice, Quot.sound]
* `LBDD.C75_exact`: [propext, Classical.choice, Quot.sound]
* `LBDD.C75_operators`: [propext, Classical.choice, Quot.sound]
* `LBDD.C75_add_bdd`: [propext, Classical.choice, Quot.sound]
* `LBDD.C76_counts`: [propext, Quot.sound]
* `LBDD.C76_negate_calls`: [propext, Classical.choice, Quot.sound]
* `LBDD.C76_parity`: [propext, Classical.choice, Quot.sound]
* `LBDD.C76_concrete`: [propext, Classical.choice, Quot.sound]
* `LBDD.C77_counts`: [propext]
* `LBDD.C77_unsat`: [propext, Classical.choice, Quot.sound]
* `LBDD.C77_contradiction`: [propext, Classical.choice, Quot.sound]
* `LBDD.C77_range_unsat`: [propext, Classical.choice, Quot.sound]
* `LBDD.C77_range_concrete`: [propext, Classical.choice, Quot.sound]
* `LBDD.C77_first`: [propext, Classical.choice, Quot.sound]
* `LBDD.C77_parity`: [propext, Classical.choice, Quot.sound]
* `LBDD.C77_parity_contradiction`: [propext, Classical.choice, Quot.sound]
* `LBDD.C77_concrete`: [propext, Classical.choice, Quot.sound]
* `LBDD.C77_first_concrete`: [propext, Classical.choice, Quot.sound]
* `LBDD.C78_counts`: [propext, Quot.sound]
* `LBDD.C78_nr_nodes`: [propext, Classical.choice, Quot.sound]
* `LBDD.C78_postorder`: [propext, Classical.choice, Quot.sound]
* `LBDD.C78_bfs`: [propext, Classical.choice, Quot.sound]
* `LBDD.C78_variables`: [propext, Classical.choice, Quot.sound]
* `LBDD.C78_concrete`: [propext, Classical.choice, Quot.sound]
* `LBDD.C79_and`: [propext, Classical.choice, Quot.sound]
* `LBDD.C79_and_ordered`: [propext, Classical.choice, Quot.sound]
* `LBDD.C79_range`: [propext, Classical.choice, Quot.sound]
* `LBDD.C79_range_ordered`: [propext, Classical.choice, Quot.sound]
* `LBDD.C79_depth`: [propext, Classical.choice, Quot.sound]
* `LBDD.C79_concrete`: [propext, Classical.choice, Quot.sound]
* `LBDD.C80_nr_nodes`: [propext, Classical.choice, Quot.sound]
* `LBDD.C80_postorder`: [propext, Classical.choice, Quot.sound]
* `LBDD.C80_same_size`: [propext, Classical.choice, Quot.sound]
* `LBDD.C80_entry`: [propext, Classical.choice, Quot.sound]
* `LBDD.C80_minimal`: [propext, Classical.choice, Quot.sound]
* `LBDD.C80_concrete`: [propext, Classical.choice, Quot.sound]
* `LBDD.C80_entry_concrete`: [propext, Classical.choice, Quot.sound]
* `LBDD.C80_refuted`: [propext, Classical.choice, Quot.sound]
* `LBDD.C81_store_partial`: [propext, Classical.choice, Quot.sound]
* `LBDD.C81_step_partial`: [propext, Classical.choice, Quot.sound]
* `LBDD.C81_equal_partial`: [propext, Classical.choice, Quot.sound]
* `LBDD.C81_any_store_partial`: [propext, Classical.choice, Quot.sound]
* `LBDD.C81_any_step_partial`: [propext, Classical.choice, Quot.sound]
* `LBDD.C81_any_concrete`: [propext, Classical.choice, Quot.sound]
* `LBDD.C81_concrete`: [propext, Classical.choice, Quot.sound]
* `LBDD.C81_refuted`: [propext, Classical.choice, Quot.sound]
* `LBDD.C82_system_partial`: [propext, Classical.choice, Quot.sound]
* `LBDD.C82_step_partial`: [propext, Classical.choice, Quot.sound]
* `LBDD.C82_any_system_partial`: [propext, Classical.choice, Quot.sound]
* `LBDD.C82_any_step_partial`: [propext, Classical.choice, Quot.sound]
* `LBDD.C82_any_concrete`: [propext, Classical.choice, Quot.sound]
* `LBDD.C82_concrete`: [propext, Classical.choice, Quot.sound]
* `LBDD.C82_refuted`: [propext, Classical.choice, Quot.sound]
* `LBDD.C83_progress_partial`: [propext, Classical.choice, Quot.sound]
* `LBDD.C83_coll_partial`: [propext, Classical.choice, Quot.sound]
* `LBDD.C83_system_partial`: [propext, Classical.choice, Quot.sound]
* `LBDD.C83_total_partial`: [propext, Classical.choice, Quot.sound]
* `LBDD.C83_needed`: [propext, Classical.choice, Quot.sound]
* `LBDD.C83_coll_needed`: [propext, Classical.choice, Quot.sound]
* `LBDD.C83_concrete`: [propext, Classical.choice, Quot.sound]
* `LBDD.C83_refuted`: [propext, Classical.choice, Quot.sound]
* `LBDD.C84_counts`: [propext, Quot.sound]
* `LBDD.C84_and`: [propext, Classical.choice, Quot.sound]
* `LBDD.C84_or`: [propext, Classical.choice, Quot.sound]
* `LBDD.C84_xor`: [propext, Classical.choice, Quot.sound]
* `LBDD.C84_ite`: [propext, Classical.choice, Quot.sound]
* `LBDD.C84_ordered`: [propext, Classical.choice, Quot.sound]
* `LBDD.C84_concrete`: [propext, Classical.choice, Quot.sound]
* `LBDD.C84_ite_concrete`: [propext, Classical.choice, Quot.sound]
* `LBDD.C85_answers`: [propext, Classical.choice, Quot.sound]
* `LBDD.C85_unique`: [propext, Classical.choice, Quot.sound]
* `LBDD.C85_same_answers`: [propext, Classical.choice, Quot.sound]
* `LBDD.C85_two_runs`: [propext, Classical.choice, Quot.sound]
* `LBDD.C85_concrete`: [propext, Classical.choice, Quot.sound]
* `LBDD.C85_two_runs_concrete`: [propext, Classical.choice, Quot.sound]
* `LBDD.C85_refuted`: [propext, Classical.choice, Quot.sound]
* `LBDD.C86_per_variable`: [propext, Classical.choice, Quot.sound]
* `LBDD.C86_nodes`: [propext, Classical.choice, Quot.sound]
* `LBDD.C86_counts`: [propext, Classical.choice, Quot.sound]
* `LBDD.C86_no_overflow`: [propext, Classical.choice, Quot.sound]
* `LBDD.C86_attained`: [propext, Classical.choice, Quot.sound]
* `LBDD.C86_full`: [propext, Classical.choice, Quot.sound]
* `LBDD.C86_concrete`: [propext, Classical.choice, Quot.sound]
* `LBDD.C87_build`: [propext, Classical.choice, Quot.sound]
* `LBDD.C87_same_handle`: [propext, Classical.choice, Quot.sound]
* `LBDD.C87_laws`: [propext, Classical.choice, Quot.sound]
* `LBDD.C87_decides`: [propext, Classical.choice, Quot.sound]
* `LBDD.C87_valid_sat`: [propext, Classical.choice, Quot.sound]
* `LBDD.C87_concrete`: [propext, Classical.choice, Quot.sound]
* `LBDD.C88_identity`: [propext, Classical.choice, Quot.sound]
* `LBDD.C88_compose`: [propext, Classical.choice, Quot.sound]
* `LBDD.C88_inverse`: [propext, Classical.choice, Quot.sound]
* `LBDD.C88_size`: [propext, Classical.choice, Quot.sound]
* `LBDD.C88_formula`: [propext, Classical.choice, Quot.sound]
* `LBDD.C88_concrete`: [propext, Classical.choice, Quot.sound]
* `LBDD.C88_formula_concrete`: [propext, Classical.choice, Quot.sound]
* `LBDD.C89_world_partial`: [propext, Classical.choice, Quot.sound]
* `LBDD.C89_step_partial`: [propext, Classical.choice, Quot.sound]
* `LBDD.C89_any_world_partial`: [propext, Classical.choice, Quot.sound]
* `LBDD.C89_any_step_partial`: [propext, Classical.choice, Quot.sound]
* `LBDD.C89_any_concrete`: [propext, Classical.choice, Quot.sound]
* `LBDD.C89_progress_partial`: [propext, Classical.choice, Quot.sound]
* `LBDD.C89_total_partial`: [propext, Classical.choice, Quot.sound]
* `LBDD.C89_total_concrete`: [propext, Classical.choice, Quot.sound]
* `LBDD.C89_transfer`: [propext, Classical.choice, Quot.sound]
* `LBDD.C89_transfer_handle`: [propext, Classical.choice, Quot.sound]
* `LBDD.C89_import`: [propext, Classical.choice, Quot.sound]
* `LBDD.C89_concrete`: [propext, Classical.choice, Quot.sound]
* `LBDD.C90_invisible`: [propext, Classical.choice, Quot.sound]
* `LBDD.C90_same_answers`: [propext, Classical.choice, Quot.sound]
* `LBDD.C90_store`: [propext, Classical.choice, Quot.sound]
* `LBDD.C90_right`: [propext, Classical.choice, Quot.sound]
* `LBDD.C90_concrete`: [propext, Classical.choice, Quot.sound]
* `LBDD.C90_right_concrete`: [propext, Classical.choice, Quot.sound]
* `LBDD.C91_answered`: [propext, Classical.choice, Quot.sound]
* `LBDD.C91_no_change`: [propext, Classical.choice, Quot.sound]
* `LBDD.C91_ends`: [propext, Classical.choice, Quot.sound]
* `LBDD.C91_no_trace`: [propext, Classical.choice, Quot.sound]
* `LBDD.C91_concrete`: [propext, Classical.choice, Quot.sound]
* `LBDD.C92_unharmed`: [propext, Classical.choice, Quot.sound]
* `LBDD.C92_handle`: [propext, Classical.choice, Quot.sound]
* `LBDD.C92_answered`: [propext, Classical.choice, Quot.sound]
* `LBDD.C92_concrete`: [propext, Classical.choice, Quot.sound] 
