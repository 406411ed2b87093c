'Gearley.Props.C01_parse_language' depends on axioms: [propext, Classical.choice, Quot.sound]
'Gearley.Props.C01_parse_user_language' depends on axioms: [propext, Classical.choice, Quot.sound]
'Gearley.Props.C02_parse_returns' depends on axioms: [propext, Classical.choice, Quot.sound]
'Gearley.Props.C02_session_returns' depends on axioms: [propext, Classical.choice, Quot.sound]
'Gearley.Props.C02_forests' depends on axioms: [propext, Quot.sound]
'Gearley.Props.C03_diverges_iff' depends on axioms: [propext, Classical.choice, Quot.sound]
'Gearley.Props.C03_returns_without_cycle' depends on axioms: [propext, Classical.choice, Quot.sound]
'Gearley.Props.C03_no_panic' depends on axioms: [propext, Classical.choice, Quot.sound]
'Gearley.Props.C03_end_earleme_never_returns' depends on axioms: [propext, Classical.choice, Quot.sound]
'Gearley.Props.C04_error_position' depends on axioms: [propext, Classical.choice, Quot.sound]
'Gearley.Props.C04_no_error' depends on axioms: [propext, Classical.choice, Quot.sound]
'Gearley.Props.C04_exact' depends on axioms: [propext, Classical.choice, Quot.sound]
'Gearley.Props.C04_ok' depends on axioms: [propext, Classical.choice, Quot.sound]
'Gearley.Props.C04_user' depends on axioms: [propext, Classical.choice, Quot.sound]
'Gearley.Props.C04_every_grammar' depends on axioms: [propext, Classical.choice, Quot.sound]
'Gearley.Props.C04_calculator' depends on axioms: [propext, Classical.choice, Quot.sound]
'Gearley.Props.C66_parse' depends on axioms: [propext, Classical.choice, Quot.sound]
'Gearley.Props.C04_user_cyclic' depends on axioms: [propext, Classical.choice, Quot.sound]
'Gearley.Props.C04_every_grammar_cyclic' depends on axioms: [propext, Classical.choice, Quot.sound]
'Gearley.Props.C05_viable_prefix' depends on axioms: [propext, Classical.choice, Quot.sound]
'Gearley.Props.C09_user' depends on axioms: [propext, Classical.choice, Quot.sound]
'Gearley.Props.C06_alternative_tokens' depends on axioms: [propext, Classical.choice, Quot.sound]
'Gearley.Props.C07_hints_harmless' depends on axioms: [propext, Classical.choice, Quot.sound]
'Gearley.Props.C08_forest_irrelevant' depends on axioms: [propext, Classical.choice, Quot.sound]
'Gearley.Props.C09_predicted_symbols' depends on axioms: [propext, Classical.choice, Quot.sound]
'Gearley.Props.C10_scan_unpredicted' depends on axioms: [propext, Quot.sound]
'Gearley.Props.C11_partial' depends on axioms: [propext, Classical.choice, Quot.sound]
'Gearley.Props.C11_through' depends on axioms: [propext, Classical.choice, Quot.sound]
'Gearley.Props.C11_stale_predictions' depends on axioms: [propext, Classical.choice, Quot.sound]
'Gearley.Props.C11_stale_hint' depends on axioms: [propext, Classical.choice, Quot.sound]
'Gearley.Props.C12_items_exact' depends on axioms: [propext, Classical.choice, Quot.sound]
'Gearley.Props.C13_C14_simple' depends on axioms: [propext, Classical.choice, Quot.sound]
'Gearley.Props.C13_C14_compact' depends on axioms: [propext, Classical.choice, Quot.sound]
'Gearley.Props.C13_C14_returned_simple' depends on axioms: [propext, Classical.choice, Quot.sound]
'Gearley.Props.C13_C14_returned_compact' depends on axioms: [propext, Classical.choice, Quot.sound]
'Gearley.Props.C15_groups_decrease' depends on axioms: [propext, Classical.choice, Quot.sound]
'Gearley.Props.C16_queue' depends on axioms: [propext, Classical.choice, Quot.sound]
'Gearley.Props.C16_heap_preserved' depends on axioms: [propext, Classical.choice, Quot.sound]
'Gearley.Props.C17_vec2d' depends on axioms: [propext, Quot.sound]
'Gearley.Props.C17_truncate_oob' depends on axioms: [propext, Quot.sound]
'Gearley.Props.C17_pop_value' depends on axioms: [propext, Quot.sound]
'Gearley.Props.C17_from_iter' depends on axioms: [propext, Quot.sound]
'Gearley.Props.C17_pop_empty_breaks' depends on axioms: [propext]
'Gearley.Props.C18_roundtrip' depends on axioms: [propext, Classical.choice, Quot.sound]
'Gearley.Props.C18_walk' depends on axioms: [propext, Classical.choice, Quot.sound]
'Gearley.Props.C19_same_forest' depends on axioms: [propext, Classical.choice, Quot.sound]
'Gearley.Props.C20_simple_partial' depends on axioms: [propext, Classical.choice, Quot.sound]
'Gearley.Props.C20_compact_partial' depends on axioms: [propext, Classical.choice, Quot.sound]
'Gearley.Props.C20_one_value' depends on axioms: [propext, Quot.sound]
'Gearley.Props.C20_flattened' depends on axioms: [propext]
'Gearley.Props.C20_returns_simple' depends on axioms: [propext, Classical.choice, Quot.sound]
'Gearley.Props.C20_returns_compact' depends on axioms: [propext, Classical.choice, Quot.sound]
'Gearley.Props.C20_empty_simple' depends on axioms: [propext, Classical.choice, Quot.sound]
'Gearley.Props.C20_empty_compact' depends on axioms: [propext, Classical.choice, Quot.sound]
'Gearley.Props.C20_ambiguous_simple' depends on axioms: [propext, Classical.choice, Quot.sound]
'Gearley.Props.C20_ambiguous_compact' depends on axioms: [propext, Classical.choice, Quot.sound]
'Gearley.Props.C21_restore_simple' depends on axioms: [propext, Quot.sound]
'Gearley.Props.C21_restore_compact' depends on axioms: [propext, Classical.choice, Quot.sound]
'Gearley.Props.C21_simple' depends on axioms: [propext, Classical.choice, Quot.sound]
'Gearley.Props.C21_compact' depends on axioms: [propext, Classical.choice, Quot.sound]
'Gearley.Props.C22_prediction_table' depends on axioms: [propext, Classical.choice, Quot.sound]
'Gearley.Props.C23_completion_table' depends on axioms: [propext, Classical.choice, Quot.sound]
'Gearley.Props.Ancestor.unique' depends on axioms: [propext, Quot.sound]
'Gearley.Props.C24_generated_partial' depends on axioms: [propext, Quot.sound]
'Gearley.Props.C24_two_continuations' depends on axioms: [propext]
'Gearley.Props.C25_lookahead_rows' depends on axioms: [propext, Classical.choice, Quot.sound]
'Gearley.Props.C26_finished_node' depends on axioms: [propext, Classical.choice, Quot.sound]
'Gearley.Props.C27_fresh' depends on axioms: [propext, Classical.choice, Quot.sound]
'Gearley.Props.C27_partial' depends on axioms: [propext, Classical.choice, Quot.sound]
'Gearley.Props.C27_not_the_root' depends on axioms: [propext, Classical.choice, Quot.sound]
'Gearley.Props.C28_trace' depends on axioms: [propext, Classical.choice, Quot.sound]
'Gearley.Props.C28_events_shifted' depends on axioms: [propext, Classical.choice, Quot.sound]
'Gearley.Props.C28_events_wrong' depends on axioms: [propext, Classical.choice, Quot.sound]
'Gearley.Props.C28_events_panic' depends on axioms: [propext, Classical.choice, Quot.sound]
'Gearley.Props.C29_exact' depends on axioms: [propext, Classical.choice, Quot.sound]
'Gearley.Props.C29_sound' depends on axioms: [propext, Classical.choice, Quot.sound]
'Gearley.Props.C29_complete_partial' depends on axioms: [propext, Classical.choice, Quot.sound]
'Gearley.Props.C29_missing' depends on axioms: [propext, Classical.choice, Quot.sound]
'Gearley.Props.C30_partial' depends on axioms: [propext, Classical.choice, Quot.sound]
'Gearley.Props.C30_with_hint' depends on axioms: [propext, Classical.choice, Quot.sound]
'Gearley.Props.C30_session' depends on axioms: [propext, Classical.choice, Quot.sound]
'Gearley.Props.C30_skip' depends on axioms: [propext, Classical.choice, Quot.sound]
'Gearley.Props.C30_compact_panics' depends on axioms: [propext, Classical.choice, Quot.sound]
'Gearley.Props.C30_stale_hint' depends on axioms: [propext, Classical.choice, Quot.sound]
'Gearley.Props.C31_all_combinations' depends on axioms: [propext, Classical.choice, Quot.sound]
'Gearley.Props.C31_mem_combos' depends on axioms: [propext, Classical.choice, Quot.sound]
'Gearley.Props.C31_length_combos' depends on axioms: [propext, Quot.sound]
'Gearley.Props.C31_nodup_combos' depends on axioms: [propext, Quot.sound]
'Gearley.Props.C31_extend_new' depends on axioms: [propext, Quot.sound]
'Gearley.Props.C31_extend_later' depends on axioms: [propext, Quot.sound]
'Gearley.Props.C31_empty_factor' depends on axioms: [propext, Classical.choice, Quot.sound]
'Gearley.Props.C32_terminal_list' depends on axioms: [propext, Classical.choice, Quot.sound]
'Gearley.Props.C32_unknown_word' depends on axioms: [propext, Classical.choice, Quot.sound]
'Gearley.Props.C32_tokenizing' depends on axioms: [propext, Classical.choice, Quot.sound]
'Gearley.Props.C32_position_lost' depends on axioms: [propext, Classical.choice, Quot.sound]
'Gearley.Props.C32_terminal_list_user' depends on axioms: [propext, Classical.choice, Quot.sound]
'Gearley.Props.C32_unknown_word_user' depends on axioms: [propext, Classical.choice, Quot.sound]
'Gearley.Props.C32_tokenizing_user' depends on axioms: [propext, Classical.choice, Quot.sound]
'Gearley.Props.C32_tokenizing_position' depends on axioms: [propext, Classical.choice, Quot.sound]
'Gearley.Props.C33_completion' depends on axioms: [propext, Quot.sound]
'Gearley.Props.C33_capacities' depends on axioms: [propext, Quot.sound]
'Gearley.Props.C33_reservations' depends on axioms: [propext, Quot.sound]
'Gearley.Props.C33_memory_overflow' depends on axioms: [propext, Quot.sound]
'Gearley.Props.C33_token_overflow' depends on axioms: [propext, Quot.sound]
'Gearley.Props.C34_order' depends on axioms: [propext, Classical.choice, Quot.sound]
'Gearley.Props.C34_blocks' depends on axioms: [propext, Classical.choice, Quot.sound]
'Gearley.Props.C34_unary_by_number' depends on axioms: [propext, Classical.choice, Quot.sound]
'Gearley.Props.C34_not_total' depends on axioms: [propext]
'Gearley.Props.C34_both_ways' depends on axioms: [propext, Quot.sound]
'Gearley.Props.C34_both_ways_iff' depends on axioms: [propext, Classical.choice, Quot.sound]
'Gearley.Props.C35_lookup' depends on axioms: [propext, Classical.choice, Quot.sound]
'Gearley.Props.C36_simple' depends on axioms: [propext, Classical.choice, Quot.sound]
'Gearley.Props.C36_compact' depends on axioms: [propext, Classical.choice, Quot.sound]
'Gearley.Props.C36_limit' depends on axioms: [propext]
'Gearley.Props.C36_made' depends on axioms: [propext, Classical.choice, Quot.sound]
'Gearley.Props.C36_parser' depends on axioms: [propext, Classical.choice, Quot.sound]
'Gearley.Props.C36_every_grammar' depends on axioms: [propext, Classical.choice, Quot.sound]
'Gearley.Props.C36_any_grammar' depends on axioms: [propext, Classical.choice, Quot.sound]
'Gearley.Props.C37_predict_union' depends on axioms: [propext, Quot.sound]
'Gearley.Props.C38_simple' depends on axioms: [propext, Classical.choice, Quot.sound]
'Gearley.Props.C38_compact' depends on axioms: [propext, Classical.choice, Quot.sound]
'Gearley.Props.C38_functional_simple' depends on axioms: [propext, Quot.sound]
'Gearley.Props.C38_functional_compact' depends on axioms: [propext]
'Gearley.Props.C39_exhaustion_final' depends on axioms: [propext, Classical.choice, Quot.sound]
'Gearley.Props.C40_item_order' depends on axioms: [propext, Classical.choice, Quot.sound]
'Gearley.Props.C40_total_preorder' depends on axioms: [propext, Classical.choice, Quot.sound]
'Gearley.Props.C41_partial' depends on axioms: [propext, Classical.choice, Quot.sound]
'Gearley.Props.C41_characters' depends on axioms: [propext, Quot.sound]
'Gearley.Props.C41_panics' depends on axioms: [propext, Classical.choice, Quot.sound]
'Gearley.Props.C41_wrong_column' depends on axioms: [propext, Classical.choice, Quot.sound]
'Gearley.Props.C42_sort_irrelevant' depends on axioms: [propext, Classical.choice, Quot.sound]
'Gearley.Props.C42_repeated_token' depends on axioms: [propext, Classical.choice, Quot.sound]
'Gearley.Props.C42_needs_order' depends on axioms: [propext, Classical.choice, Quot.sound]
'Gearley.Props.C43_cubic' depends on axioms: [propext, Classical.choice, Quot.sound]
'Gearley.Props.C43_chains' depends on axioms: [propext, Classical.choice, Quot.sound]
'Gearley.Props.C43_any' depends on axioms: [propext, Classical.choice, Quot.sound]
'Gearley.Props.C44_packed_simple' depends on axioms: [propext, Classical.choice, Quot.sound]
'Gearley.Props.C44_packed_compact' depends on axioms: [propext, Classical.choice, Quot.sound]
'Gearley.Props.C44_view_unique' depends on axioms: [propext, Quot.sound]
'Gearley.Props.C44_no_duplicates' depends on axioms: [propext]
'Gearley.Props.C44_needs_order_simple' depends on axioms: [propext, Classical.choice, Quot.sound]
'Gearley.Props.C44_needs_order_compact' depends on axioms: [propext, Classical.choice, Quot.sound]
'Gearley.Props.C44_one_simple' depends on axioms: [propext, Classical.choice, Quot.sound]
'Gearley.Props.C44_one_compact' depends on axioms: [propext, Classical.choice, Quot.sound]
'Gearley.Props.C45_values_simple' depends on axioms: [propext, Classical.choice, Quot.sound]
'Gearley.Props.C45_values_compact' depends on axioms: [propext, Classical.choice, Quot.sound]
'Gearley.Props.C45_one_value_per_alternative' depends on axioms: [propext, Quot.sound]
'Gearley.Props.C45_unambiguous' depends on axioms: [propext, Quot.sound]
'Gearley.Props.C45_needs_order' depends on axioms: [propext, Classical.choice, Quot.sound]
'Gearley.Props.C46_built' depends on axioms: [propext, Classical.choice, Quot.sound]
'Gearley.Props.C46_language' depends on axioms: [propext, Classical.choice, Quot.sound]
'Gearley.Props.C46_unknown_token' depends on axioms: [propext, Classical.choice, Quot.sound]
'Gearley.Props.C47_climb' depends on axioms: [propext, Classical.choice, Quot.sound]
'Gearley.Props.C47_exponential' depends on axioms: [propext, Classical.choice, Quot.sound]
'Gearley.Props.C47_chains' depends on axioms: [propext, Classical.choice, Quot.sound]
'Gearley.Props.C48_quadratic' depends on axioms: [propext, Classical.choice, Quot.sound]
'Gearley.Props.C48_unambiguous' depends on axioms: [propext, Classical.choice, Quot.sound]
'Gearley.Props.C49_lower' depends on axioms: [propext, Classical.choice, Quot.sound]
'Gearley.Props.C49_right_recursion' depends on axioms: [propext, Classical.choice, Quot.sound]
'Gearley.Props.C50_linear' depends on axioms: [propext, Classical.choice, Quot.sound]
'Gearley.Props.C50_left_linear' depends on axioms: [propext, Classical.choice, Quot.sound]
'Gearley.Props.C50_any' depends on axioms: [propext, Classical.choice, Quot.sound]
'Gearley.Props.C50_left_linear_any' depends on axioms: [propext, Classical.choice, Quot.sound]
'Gearley.Props.C51_calls' depends on axioms: [propext, Classical.choice, Quot.sound]
'Gearley.Props.C51_parse' depends on axioms: [propext, Classical.choice, Quot.sound]
'Gearley.Props.C51_left_linear' depends on axioms: [propext, Classical.choice, Quot.sound]
'Gearley.Props.C51_sharp' depends on axioms: [propext, Classical.choice, Quot.sound]
'Gearley.Props.C51_usize' depends on axioms: [propext, Classical.choice, Quot.sound]
'Gearley.Props.C51_usize_parse' depends on axioms: [propext, Classical.choice, Quot.sound]
'Gearley.Props.C51_usize_terminal_list' depends on axioms: [propext, Classical.choice, Quot.sound]
'Gearley.Props.C51_usize_tokenizing' depends on axioms: [propext, Classical.choice, Quot.sound]
'Gearley.Props.C52_needed_kept' depends on axioms: [propext, Classical.choice, Quot.sound]
'Gearley.Props.C52_bounded' depends on axioms: [propext, Classical.choice, Quot.sound]
'Gearley.Props.C52_left_linear' depends on axioms: [propext, Classical.choice, Quot.sound]
'Gearley.Props.C52_right_recursion' depends on axioms: [propext, Classical.choice, Quot.sound]
'Gearley.Props.C53_work' depends on axioms: [propext, Classical.choice, Quot.sound]
'Gearley.Props.C53_parse' depends on axioms: [propext, Classical.choice, Quot.sound]
'Gearley.Props.C53_right_linear' depends on axioms: [propext, Classical.choice, Quot.sound]
'Gearley.Props.C53_right_recursion' depends on axioms: [propext, Classical.choice, Quot.sound]
'Gearley.Props.C53_chains' depends on axioms: [propext, Classical.choice, Quot.sound]
'Gearley.Props.C53_right_linear_any' depends on axioms: [propext, Classical.choice, Quot.sound]
'Gearley.Props.C54_counted' depends on axioms: [propext, Classical.choice, Quot.sound]
'Gearley.Props.C54_counted_parse' depends on axioms: [propext, Classical.choice, Quot.sound]
'Gearley.Props.C54_forests' depends on axioms: [propext, Classical.choice, Quot.sound]
'Gearley.Props.C54_new' depends on axioms: [propext, Quot.sound]
'Gearley.Props.C54_size' depends on axioms: [propext, Classical.choice, Quot.sound]
'Gearley.Props.C54_cubic' depends on axioms: [propext, Classical.choice, Quot.sound]
'Gearley.Props.C54_quadratic' depends on axioms: [propext, Classical.choice, Quot.sound]
'Gearley.Props.C54_left_linear' depends on axioms: [propext, Classical.choice, Quot.sound]
'Gearley.Props.C54_right_linear' depends on axioms: [propext, Classical.choice, Quot.sound]
'Gearley.Props.C54_all_trees_simple' depends on axioms: [propext, Classical.choice, Quot.sound]
'Gearley.Props.C54_all_trees_compact' depends on axioms: [propext, Classical.choice, Quot.sound]
'Gearley.Props.C54_right_recursion' depends on axioms: [propext, Classical.choice, Quot.sound]
'Gearley.Props.C54_any' depends on axioms: [propext, Classical.choice, Quot.sound]
'Gearley.Props.C54_left_linear_any' depends on axioms: [propext, Classical.choice, Quot.sound]
'Gearley.Props.C54_right_linear_any' depends on axioms: [propext, Classical.choice, Quot.sound]
'Gearley.Props.C54_any_trees_simple' depends on axioms: [propext, Classical.choice, Quot.sound]
'Gearley.Props.C54_any_trees_compact' depends on axioms: [propext, Classical.choice, Quot.sound]
'Gearley.Props.C55_trees' depends on axioms: [propext, Classical.choice, Quot.sound]
'Gearley.Props.C55_language' depends on axioms: [propext, Classical.choice, Quot.sound]
'Gearley.Props.C55_accepts' depends on axioms: [propext, Classical.choice, Quot.sound]
'Gearley.Props.C55_values_simple' depends on axioms: [propext, Classical.choice, Quot.sound]
'Gearley.Props.C55_values_compact' depends on axioms: [propext, Classical.choice, Quot.sound]
'Gearley.Props.C55_every_grammar' depends on axioms: [propext, Classical.choice, Quot.sound]
'Gearley.Props.C56_unambiguous' depends on axioms: [propext, Classical.choice, Quot.sound]
'Gearley.Props.C56_accepts' depends on axioms: [propext, Classical.choice, Quot.sound]
'Gearley.Props.C56_partial_simple' depends on axioms: [propext, Classical.choice, Quot.sound]
'Gearley.Props.C56_partial_compact' depends on axioms: [propext, Classical.choice, Quot.sound]
'Gearley.Props.C56_long_numbers_simple' depends on axioms: [propext, Classical.choice, Quot.sound]
'Gearley.Props.C56_long_numbers_compact' depends on axioms: [propext, Classical.choice, Quot.sound]
'Gearley.Props.C56_shifted_simple' depends on axioms: [propext, Classical.choice, Quot.sound]
'Gearley.Props.C56_shifted_compact' depends on axioms: [propext, Classical.choice, Quot.sound]
'Gearley.Props.C56_no_order' depends on axioms: [propext, Classical.choice, Quot.sound]
'Gearley.Props.C57_rounds_simple' depends on axioms: [propext, Classical.choice, Quot.sound]
'Gearley.Props.C57_rounds_compact' depends on axioms: [propext, Classical.choice, Quot.sound]
'Gearley.Props.C57_unique' depends on axioms: [propext, Classical.choice, Quot.sound]
'Gearley.Props.C57_unambiguous' depends on axioms: [propext, Quot.sound]
'Gearley.Props.C57_linear' depends on axioms: [propext, Classical.choice, Quot.sound]
'Gearley.Props.C57_linear_simple' depends on axioms: [propext, Classical.choice, Quot.sound]
'Gearley.Props.C57_linear_compact' depends on axioms: [propext, Classical.choice, Quot.sound]
'Gearley.Props.C57_exponential_simple' depends on axioms: [propext, Classical.choice, Quot.sound]
'Gearley.Props.C57_exponential_compact' depends on axioms: [propext, Classical.choice, Quot.sound]
'Gearley.Props.C57_linear_tree' depends on axioms: [propext, Quot.sound]
'Gearley.Props.C57_rounds_one_simple' depends on axioms: [propext, Classical.choice, Quot.sound]
'Gearley.Props.C57_rounds_one_compact' depends on axioms: [propext, Classical.choice, Quot.sound]
'Gearley.Props.C57_needs_order' depends on axioms: [propext, Classical.choice, Quot.sound]
'Gearley.Props.C58_values_simple' depends on axioms: [propext, Classical.choice, Quot.sound]
'Gearley.Props.C58_values_compact' depends on axioms: [propext, Classical.choice, Quot.sound]
'Gearley.Props.C58_number' depends on axioms: [propext, Classical.choice, Quot.sound]
'Gearley.Props.C58_trees' depends on axioms: [propext, Classical.choice, Quot.sound]
'Gearley.Props.C58_unique' depends on axioms: [propext, Quot.sound]
'Gearley.Props.C58_fewer_values' depends on axioms: [propext, Classical.choice, Quot.sound]
'Gearley.Props.C58_arguments' depends on axioms: [propext, Classical.choice, Quot.sound]
'Gearley.Props.C58_too_many_arguments' depends on axioms: [propext, Classical.choice, Quot.sound]
'Gearley.Props.C58_needs_order' depends on axioms: [propext, Classical.choice, Quot.sound]
'Gearley.Props.C59_accepts' depends on axioms: [propext, Classical.choice, Quot.sound]
'Gearley.Props.C59_number_simple' depends on axioms: [propext, Classical.choice, Quot.sound]
'Gearley.Props.C59_number_compact' depends on axioms: [propext, Classical.choice, Quot.sound]
'Gearley.Props.C59_partial_simple' depends on axioms: [propext, Classical.choice, Quot.sound]
'Gearley.Props.C59_partial_compact' depends on axioms: [propext, Classical.choice, Quot.sound]
'Gearley.Props.C59_wrong_operands' depends on axioms: [propext, Classical.choice, Quot.sound]
'Gearley.Props.C59_wrong_value' depends on axioms: [propext, Classical.choice, Quot.sound]
'Gearley.Props.C59_unreachable' depends on axioms: [propext, Classical.choice, Quot.sound]
'Gearley.Props.C59_shifted_simple' depends on axioms: [propext, Classical.choice, Quot.sound]
'Gearley.Props.C59_shifted_compact' depends on axioms: [propext, Classical.choice, Quot.sound]
'Gearley.Props.C59_no_order' depends on axioms: [propext, Classical.choice, Quot.sound]
'Gearley.Props.C60_session' depends on axioms: [propext, Classical.choice, Quot.sound]
'Gearley.Props.C60_parse' depends on axioms: [propext, Classical.choice, Quot.sound]
'Gearley.Props.C60_terminal_list' depends on axioms: [propext, Classical.choice, Quot.sound]
'Gearley.Props.C60_tokenizing' depends on axioms: [propext, Classical.choice, Quot.sound]
'Gearley.Props.C60_from_grammar' depends on axioms: [propext, Classical.choice, Quot.sound]
'Gearley.Props.C60_calls' depends on axioms: [propext, Classical.choice, Quot.sound]
'Gearley.Props.C60_run' depends on axioms: [propext, Classical.choice, Quot.sound]
'Gearley.Props.C60_sharp' depends on axioms: [propext, Classical.choice, Quot.sound]
'Gearley.Props.C61_lexer' depends on axioms: [propext, Quot.sound]
'Gearley.Props.C61_parser' depends on axioms: [propext, Classical.choice, Quot.sound]
'Gearley.Props.C61_accepts' depends on axioms: [propext, Classical.choice, Quot.sound]
'Gearley.Props.C61_nested' depends on axioms: [propext, Quot.sound]
'Gearley.Props.C61_end' depends on axioms: [propext, Classical.choice, Quot.sound]
'Gearley.Props.C61_square_partial' depends on axioms: [propext, Quot.sound]
'Gearley.Props.C61_no_designator' depends on axioms: [propext, Classical.choice, Quot.sound]
'Gearley.Props.C61_wrong_designator' depends on axioms: [propext, Classical.choice, Quot.sound]
'Gearley.Props.C61_trees' depends on axioms: [propext, Classical.choice, Quot.sound]
'Gearley.Props.C61_forests' depends on axioms: [propext, Classical.choice, Quot.sound]
'Gearley.Props.C62_basic' depends on axioms: [propext, Classical.choice, Quot.sound]
'Gearley.Props.C62_unknown_word' depends on axioms: [propext, Classical.choice, Quot.sound]
'Gearley.Props.C62_advanced' depends on axioms: [propext, Classical.choice, Quot.sound]
'Gearley.Props.C62_c' depends on axioms: [propext, Classical.choice, Quot.sound]
'Gearley.Props.C62_history' depends on axioms: [propext, Classical.choice, Quot.sound]
'Gearley.Props.C62_replies' depends on axioms: [propext, Classical.choice, Quot.sound]
'Gearley.Props.C62_never_unfinished' depends on axioms: [propext, Classical.choice, Quot.sound]
'Gearley.Props.C62_verdict' depends on axioms: [propext, Classical.choice, Quot.sound]
'Gearley.Props.C62_empty_input' depends on axioms: [propext, Classical.choice, Quot.sound]
'Gearley.Props.C62_trailing_space' depends on axioms: [propext, Classical.choice, Quot.sound]
'Gearley.Props.C62_empty_witness' depends on axioms: [propext, Classical.choice, Quot.sound]
'Gearley.Props.C62_c_witness' depends on axioms: [propext, Classical.choice, Quot.sound]
'Gearley.Props.C63_verdict' depends on axioms: [propext, Classical.choice, Quot.sound]
'Gearley.Props.C63_returns' depends on axioms: [propext, Classical.choice, Quot.sound]
'Gearley.Props.C63_diverges' depends on axioms: [propext, Classical.choice, Quot.sound]
'Gearley.Props.C63_infinite' depends on axioms: [propext, Classical.choice, Quot.sound]
'Gearley.Props.C63_diverges_iff_no_lookahead' depends on axioms: [propext, Classical.choice, Quot.sound]
'Gearley.Props.C63_user_verdict' depends on axioms: [propext, Classical.choice, Quot.sound]
'Gearley.Props.C63_user_returns' depends on axioms: [propext, Classical.choice, Quot.sound]
'Gearley.Props.C63_user_infinite' depends on axioms: [propext, Classical.choice, Quot.sound]
'Gearley.Props.C63_user_diverges' depends on axioms: [propext, Classical.choice, Quot.sound]
'Gearley.Props.C63_every_grammar' depends on axioms: [propext, Classical.choice, Quot.sound]
'Gearley.Props.uacyclic_iff' depends on axioms: [propext, Classical.choice, Quot.sound]
'Gearley.Props.C64_trees_simple' depends on axioms: [propext, Classical.choice, Quot.sound]
'Gearley.Props.C64_trees_compact' depends on axioms: [propext, Classical.choice, Quot.sound]
'Gearley.Props.C64_values_simple' depends on axioms: [propext, Classical.choice, Quot.sound]
'Gearley.Props.C64_values_compact' depends on axioms: [propext, Classical.choice, Quot.sound]
'Gearley.Props.C64_empty' depends on axioms: [propext, Classical.choice, Quot.sound]
'Gearley.Props.C64_empty_simple' depends on axioms: [propext, Classical.choice, Quot.sound]
'Gearley.Props.C64_empty_compact' depends on axioms: [propext, Classical.choice, Quot.sound]
'Gearley.Props.C65_linear' depends on axioms: [propext, Classical.choice, Quot.sound]
'Gearley.Props.C65_memory' depends on axioms: [propext, Classical.choice, Quot.sound]
'Gearley.Props.C65_calculator' depends on axioms: [propext, Classical.choice, Quot.sound]
'Gearley.Props.C65_unambiguous' depends on axioms: [propext, Classical.choice, Quot.sound]
'Gearley.Props.C65_acyclic' depends on axioms: [propext, Classical.choice, Quot.sound]
'Gearley.Props.C65_every_grammar' depends on axioms: [propext, Classical.choice, Quot.sound]
'Gearley.Props.C66_diverges_iff' depends on axioms: [propext, Classical.choice, Quot.sound]
'Gearley.Props.C66_through_iff' depends on axioms: [propext, Classical.choice, Quot.sound]
'Gearley.Props.C66_chart' depends on axioms: [propext, Classical.choice, Quot.sound]
'Gearley.Props.C66_lower' depends on axioms: [propext, Classical.choice, Quot.sound]
'Gearley.Props.C66_hints_prune' depends on axioms: [propext, Classical.choice, Quot.sound]
'Gearley.Props.C67_size_simple' depends on axioms: [propext, Classical.choice, Quot.sound]
'Gearley.Props.C67_size_compact' depends on axioms: [propext, Classical.choice, Quot.sound]
'Gearley.Props.C67_work_simple' depends on axioms: [propext, Classical.choice, Quot.sound]
'Gearley.Props.C67_cubic_simple' depends on axioms: [propext, Classical.choice, Quot.sound]
'Gearley.Props.C67_cubic_compact' depends on axioms: [propext, Classical.choice, Quot.sound]
