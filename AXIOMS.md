# Axioms of the theorems in MANIFEST.json

Generated by tools/axioms.py (`#print axioms`). All of them are axioms of Lean itself.

## none

* `DP.C41_backslash_false`
* `DP.C48_display_any_covers`
* `DP.C81_short_text`

## propext

* `DP.C102_number`
* `DP.C102_unique`
* `DP.C103_unique`
* `DP.C104_unique`
* `DP.C11_one_result`
* `DP.C24_prune_leaf`
* `DP.C26_compact_leaf`
* `DP.C27_eof_nodes_dropped`
* `DP.C27_flatten_balanced`
* `DP.C29_consume_val`
* `DP.C29_getters`
* `DP.C29_split_first_nodes`
* `DP.C44_eof_false`
* `DP.C48_display`
* `DP.C48_display_any`
* `DP.C51_descriptions`
* `DP.C51_error_text`
* `DP.C51_expression_text`
* `DP.C51_flat_text`
* `DP.C51_list_text`
* `DP.C51_pretty`
* `DP.C51_tree_text`
* `DP.C53_same_parser`
* `DP.C56_compact_last`
* `DP.C56_prune_pass_differ`
* `DP.C66_priorities`
* `DP.C82_same_parser`
* `DP.C86_same`
* `DP.C88_same_parser`
* `DP.C90_join`
* `DP.C99_drop`
* `DP.C99_drop_error`
* `DP.C99_drop_rules`
* `DP.C99_parser_error`

## propext, Quot.sound

* `DP.C102_few`
* `DP.C102_given`
* `DP.C102_same_answer`
* `DP.C107_derived`
* `DP.C108_compact`
* `DP.C109_compact`
* `DP.C21_kept_fault_is_a_repetition_that_stopped`
* `DP.C22_keys_unique`
* `DP.C25_leaves_unchanged`
* `DP.C25_only_kept_rules_below_root`
* `DP.C25_pass_through_dissolves_other_rules`
* `DP.C26_compact_idempotent`
* `DP.C26_compact_joins_runs`
* `DP.C26_no_adjacent_values`
* `DP.C27_flatten_injective`
* `DP.C27_flatten_reads_as_the_tree`
* `DP.C28_post_processing_keeps_text_of_any_tree`
* `DP.C29_peek_first_node`
* `DP.C35_verbatim_iff`
* `DP.C40_empty`
* `DP.C40_layout`
* `DP.C40_text`
* `DP.C44_class_without_ranges_false`
* `DP.C47_reports_refine_peg`
* `DP.C51_other_texts`
* `DP.C51_ranges`
* `DP.C51_rules_text`
* `DP.C56_compact_pass_through`
* `DP.C66_equality`
* `DP.C79_spells_what_was_read`
* `DP.C82_bound`
* `DP.C82_whole`
* `DP.C86_bound`
* `DP.C86_exact`
* `DP.C86_siblings`
* `DP.C86_values`
* `DP.C87_compact`
* `DP.C87_flatten`
* `DP.C87_pass_through`
* `DP.C87_prune`
* `DP.C88_bound`
* `DP.C88_parse`
* `DP.C88_same_calls`
* `DP.C90_pieces_without`
* `DP.C92_error`
* `DP.C92_literal`
* `DP.C97_any_order`
* `DP.C97_copies`
* `DP.C97_depth`
* `DP.C97_size`
* `DP.C99_any_order`
* `DP.C99_print`

## propext, Classical.choice, Quot.sound

* `DP.C01_ok_means_everything_consumed`
* `DP.C01_prefix_is_not_ok`
* `DP.C02_parse_diverges_iff_peg`
* `DP.C02_parse_diverges_iff_peg_any_bounds`
* `DP.C02_parse_err_iff_peg`
* `DP.C02_parse_err_iff_peg_any_bounds`
* `DP.C02_parse_ok_iff_peg`
* `DP.C02_parse_ok_iff_peg_any_bounds`
* `DP.C03_eof_atom_adds_text`
* `DP.C03_leaves_spell_input`
* `DP.C03_leaves_spell_input_any_rules`
* `DP.C04_ast_mirrors_grammar`
* `DP.C04_ast_mirrors_grammar_any_bounds`
* `DP.C05_choice_commits_to_first_match`
* `DP.C05_choice_fails_iff_all_fail`
* `DP.C05_later_alternatives_are_irrelevant`
* `DP.C06_bounds_false`
* `DP.C06_max_below_min`
* `DP.C06_max_zero_is_unbounded`
* `DP.C06_repetition_err`
* `DP.C06_repetition_ok`
* `DP.C07_negation_err`
* `DP.C07_negation_ok`
* `DP.C08_pieces_are_contiguous`
* `DP.C08_sequence_err`
* `DP.C08_sequence_ok`
* `DP.C09_critical_errors_are_final`
* `DP.C09_critical_errors_were_reached`
* `DP.C100_language`
* `DP.C100_linear`
* `DP.C100_nearest`
* `DP.C100_one_reading`
* `DP.C100_quadratic`
* `DP.C100_quadratic_attained`
* `DP.C100_twice_same`
* `DP.C100_twice_slow`
* `DP.C101_comments`
* `DP.C101_counting`
* `DP.C101_linear`
* `DP.C101_loose_slow`
* `DP.C101_strict_linear`
* `DP.C101_strict_same`
* `DP.C102_exists`
* `DP.C102_exponential`
* `DP.C102_repeated`
* `DP.C103_attained`
* `DP.C103_chars`
* `DP.C103_exact`
* `DP.C103_exists`
* `DP.C103_moved`
* `DP.C103_tree`
* `DP.C104_exists`
* `DP.C104_exponential`
* `DP.C104_factor`
* `DP.C104_kept`
* `DP.C104_linear`
* `DP.C104_peak`
* `DP.C104_tree`
* `DP.C105_error`
* `DP.C105_json`
* `DP.C105_linear`
* `DP.C105_one_value`
* `DP.C105_round_trip`
* `DP.C106_accepted`
* `DP.C106_accepted_exact`
* `DP.C106_atom`
* `DP.C106_enough`
* `DP.C106_error`
* `DP.C106_needed`
* `DP.C106_peg`
* `DP.C106_same`
* `DP.C107_error`
* `DP.C107_linear`
* `DP.C107_power`
* `DP.C107_rules`
* `DP.C108_csv`
* `DP.C108_error`
* `DP.C108_linear`
* `DP.C108_one_table`
* `DP.C108_round_trip`
* `DP.C108_trees`
* `DP.C109_value`
* `DP.C10_closed_rules_never_missing`
* `DP.C10_no_main`
* `DP.C110_any_order`
* `DP.C110_code`
* `DP.C110_cut`
* `DP.C110_decode`
* `DP.C110_linear`
* `DP.C110_listed`
* `DP.C110_order`
* `DP.C110_peg`
* `DP.C111_address_tree`
* `DP.C111_addresses`
* `DP.C111_calls`
* `DP.C111_different`
* `DP.C111_each`
* `DP.C111_numerals`
* `DP.C111_peg`
* `DP.C111_refused`
* `DP.C111_short_first`
* `DP.C112_one_way`
* `DP.C112_peg`
* `DP.C112_refused`
* `DP.C112_right`
* `DP.C11_order_of_entries_is_irrelevant`
* `DP.C11_outcome_depends_on_mapping`
* `DP.C12_total_on_ascii`
* `DP.C12_well_formed_grammars_terminate`
* `DP.C13_empty_repetition_diverges`
* `DP.C13_false_empty_repetition`
* `DP.C13_false_left_recursion`
* `DP.C13_left_recursion_diverges`
* `DP.C14_positions_are_true_coordinates`
* `DP.C14_positions_are_true_coordinates_debug`
* `DP.C15_line_context`
* `DP.C15_line_context_debug`
* `DP.C16_no_panic_on_ascii`
* `DP.C16_no_panic_on_ascii_debug`
* `DP.C17_false`
* `DP.C17_ok_only_on_ascii`
* `DP.C18_err_iff`
* `DP.C18_ok_iff`
* `DP.C18_parse_debug_agrees`
* `DP.C19_debug_trace_sound`
* `DP.C19_parse_has_no_trace`
* `DP.C20_empty_choice`
* `DP.C20_failed_choice_reports_deepest`
* `DP.C21_incomplete_match`
* `DP.C21_may_precede_the_end_of_the_match`
* `DP.C21_without_repetitions`
* `DP.C22_add`
* `DP.C22_last_definition_wins`
* `DP.C22_merge`
* `DP.C22_merge_assoc`
* `DP.C22_merge_empty`
* `DP.C23_add`
* `DP.C23_merge`
* `DP.C23_unreachable_rules_are_irrelevant`
* `DP.C24_no_removed_name_below_root`
* `DP.C24_prune_idempotent`
* `DP.C24_prune_nothing`
* `DP.C24_prune_removes_exactly_named_subtrees`
* `DP.C24_prune_set`
* `DP.C24_prune_twice`
* `DP.C25_pass_through_idempotent`
* `DP.C28_post_processing_preserves_text`
* `DP.C28_post_processing_preserves_text_any_rules`
* `DP.C29_consume_node_get_subnodes`
* `DP.C29_consume_this_value`
* `DP.C29_errors`
* `DP.C29_flat`
* `DP.C29_flat_errors`
* `DP.C30_always_returns`
* `DP.C31_no_panic_on_ascii`
* `DP.C31_ok_only_on_ascii`
* `DP.C31_panic_on_non_ascii_comment`
* `DP.C31_total_on_ascii`
* `DP.C32_denotes`
* `DP.C32_leaves_spell_input`
* `DP.C32_rules_in_normal_form`
* `DP.C33_normalise`
* `DP.C33_round_trip`
* `DP.C33_round_trip_set`
* `DP.C34_escaped_literal`
* `DP.C34_hex`
* `DP.C34_hex_all`
* `DP.C34_pieces`
* `DP.C35_empty_rejected`
* `DP.C35_not_verbatim`
* `DP.C35_single_quoted`
* `DP.C36_class`
* `DP.C36_class_fails`
* `DP.C36_dot`
* `DP.C36_eof`
* `DP.C36_error`
* `DP.C36_literal`
* `DP.C36_parse`
* `DP.C37_bare_names`
* `DP.C37_last_rule_wins`
* `DP.C37_module_prefix_is_not_applied`
* `DP.C37_resolution`
* `DP.C38_accepted_compiles`
* `DP.C38_counterexamples`
* `DP.C39_syntax_errors`
* `DP.C41_error`
* `DP.C41_literal`
* `DP.C42_bootstrap`
* `DP.C42_not_the_same_rules`
* `DP.C42_source_denotes_table`
* `DP.C42_table_entries`
* `DP.C43_comment_swallows_end_of_line`
* `DP.C43_final_end_of_line`
* `DP.C44_backslash_false`
* `DP.C44_exact`
* `DP.C44_expression`
* `DP.C44_from_peg`
* `DP.C44_rules`
* `DP.C44_rules_exact`
* `DP.C45_accepted_texts`
* `DP.C45_meaning`
* `DP.C45_no_meaning`
* `DP.C46_unambiguous`
* `DP.C47_ascii`
* `DP.C47_parse_debug_err_iff`
* `DP.C47_parse_debug_ok_iff`
* `DP.C47_parse_debug_panic_iff`
* `DP.C47_parse_err_iff`
* `DP.C47_parse_ok_iff`
* `DP.C47_parse_panic_iff`
* `DP.C47_specification_is_functional`
* `DP.C48_complaint`
* `DP.C48_errors`
* `DP.C48_fault_or_meaning`
* `DP.C48_panics`
* `DP.C48_unambiguous`
* `DP.C49_common_endings_false`
* `DP.C49_empty_choice_false`
* `DP.C49_optional_is_not_a_choice`
* `DP.C49_same_answers`
* `DP.C49_same_rule`
* `DP.C50_same_critical_errors`
* `DP.C50_same_rule`
* `DP.C50_same_trees`
* `DP.C50_same_verdicts`
* `DP.C51_ast_errors`
* `DP.C51_characters`
* `DP.C51_descriptions_differ`
* `DP.C51_display`
* `DP.C51_errors_identified`
* `DP.C51_expressions`
* `DP.C51_flat_nodes`
* `DP.C51_flat_trees`
* `DP.C51_parser_errors`
* `DP.C51_peg_errors`
* `DP.C51_quoted`
* `DP.C51_quoted_exactly`
* `DP.C51_quoted_plain`
* `DP.C51_rules`
* `DP.C51_trees`
* `DP.C52_depth`
* `DP.C52_depth_attained`
* `DP.C52_depth_without_recursion`
* `DP.C52_endless_loop`
* `DP.C52_endless_stack`
* `DP.C53_bound`
* `DP.C53_calls`
* `DP.C53_effort`
* `DP.C53_exponential`
* `DP.C53_factored`
* `DP.C53_polynomial`
* `DP.C53_uses`
* `DP.C54_clash`
* `DP.C54_main_is_special`
* `DP.C54_renaming`
* `DP.C54_renaming_all`
* `DP.C54_tree_back`
* `DP.C55_debug_differs`
* `DP.C55_inline_rule`
* `DP.C55_inlining`
* `DP.C55_keep_needed`
* `DP.C55_same_errors`
* `DP.C55_same_language`
* `DP.C55_same_loops`
* `DP.C56_compact_prune`
* `DP.C56_normal_form`
* `DP.C56_pass_through_twice`
* `DP.C56_prune_after_pass_through`
* `DP.C56_prune_pass_commute`
* `DP.C56_prune_prune`
* `DP.C57_around`
* `DP.C57_blank_needed`
* `DP.C57_one_per_line`
* `DP.C57_same_tokens`
* `DP.C58_any_order`
* `DP.C58_complaints`
* `DP.C58_concatenation`
* `DP.C58_continued`
* `DP.C58_module`
* `DP.C58_module_fills_in`
* `DP.C58_second_wins`
* `DP.C59_checked`
* `DP.C59_exact`
* `DP.C59_exact_debug`
* `DP.C59_peg_text`
* `DP.C59_well_formed`
* `DP.C59_wraps`
* `DP.C60_basic`
* `DP.C60_calculator`
* `DP.C60_hello`
* `DP.C60_priority`
* `DP.C60_second`
* `DP.C60_unambiguous`
* `DP.C60_unbalanced`
* `DP.C60_until`
* `DP.C61_spaces`
* `DP.C61_tree`
* `DP.C61_without_spaces`
* `DP.C62_more_rules`
* `DP.C62_negation`
* `DP.C62_readme_add`
* `DP.C62_readme_merge`
* `DP.C62_readme_missing`
* `DP.C62_stays`
* `DP.C63_balanced`
* `DP.C63_context_free`
* `DP.C63_incomplete`
* `DP.C63_not_derived`
* `DP.C63_order`
* `DP.C63_sound`
* `DP.C63_unambiguous`
* `DP.C64_comment`
* `DP.C64_concat_refer`
* `DP.C64_escape`
* `DP.C64_hello_world`
* `DP.C64_hex`
* `DP.C64_literal`
* `DP.C64_match_par`
* `DP.C64_optional`
* `DP.C64_or`
* `DP.C64_organized`
* `DP.C64_parentheses`
* `DP.C64_parenthesised`
* `DP.C64_quotes`
* `DP.C64_recursion`
* `DP.C64_refused`
* `DP.C64_repetitions`
* `DP.C64_till`
* `DP.C65_paste`
* `DP.C65_pasted`
* `DP.C65_prints`
* `DP.C65_rules_rs`
* `DP.C66_flatten`
* `DP.C66_no_eof_node`
* `DP.C66_repetitions`
* `DP.C66_same_input`
* `DP.C66_same_text`
* `DP.C67_linear`
* `DP.C67_useless`
* `DP.C68_accepted`
* `DP.C68_derived`
* `DP.C68_early`
* `DP.C68_not_late`
* `DP.C68_useless`
* `DP.C69_attained`
* `DP.C69_constant`
* `DP.C69_no_recursion`
* `DP.C69_power`
* `DP.C70_and_inlining`
* `DP.C70_answers`
* `DP.C70_compact_trees`
* `DP.C70_limits`
* `DP.C70_post_processing`
* `DP.C71_attained`
* `DP.C71_depth`
* `DP.C71_depth_attained`
* `DP.C71_not_linear`
* `DP.C71_parentheses`
* `DP.C71_quadratic`
* `DP.C72_both`
* `DP.C72_closed`
* `DP.C72_either`
* `DP.C72_other`
* `DP.C73_counting`
* `DP.C73_regular`
* `DP.C74_accepted`
* `DP.C74_conditions_needed`
* `DP.C74_interchangeable`
* `DP.C74_other_characters`
* `DP.C75_empty`
* `DP.C75_histories`
* `DP.C75_returns`
* `DP.C76_depth`
* `DP.C76_depth_attained`
* `DP.C76_factor`
* `DP.C76_size`
* `DP.C77_exactly`
* `DP.C77_no_recursion`
* `DP.C77_recursion_needed`
* `DP.C77_regular`
* `DP.C78_accept_same`
* `DP.C78_accepts_none`
* `DP.C78_accepts_some`
* `DP.C78_always_returns`
* `DP.C78_no_exact_check`
* `DP.C79_trace_grows`
* `DP.C79_trace_is_tree_under_construction`
* `DP.C79_trace_size`
* `DP.C80_calls`
* `DP.C80_causes`
* `DP.C80_decides`
* `DP.C80_depth`
* `DP.C80_diverges_iff`
* `DP.C80_patience`
* `DP.C80_too_deep`
* `DP.C81_linear`
* `DP.C81_short_linear`
* `DP.C81_short_same`
* `DP.C81_unclosed`
* `DP.C82_choices`
* `DP.C82_copied`
* `DP.C82_number`
* `DP.C82_peg`
* `DP.C83_calculator`
* `DP.C83_other`
* `DP.C83_prefix`
* `DP.C83_rules_from_peg`
* `DP.C83_rules_from_peg_same`
* `DP.C83_same`
* `DP.C84_calculator`
* `DP.C84_endless_loop`
* `DP.C84_every_stack`
* `DP.C84_fixed_stack`
* `DP.C84_left_recursion`
* `DP.C84_linear_stack`
* `DP.C84_more_stack`
* `DP.C84_need`
* `DP.C84_rules_from_peg`
* `DP.C84_same_answer`
* `DP.C85_linear`
* `DP.C85_long_literal`
* `DP.C85_more_calls`
* `DP.C85_needs`
* `DP.C85_rules`
* `DP.C85_same_answer`
* `DP.C86_dots`
* `DP.C86_number`
* `DP.C86_parse`
* `DP.C87_deep`
* `DP.C87_enough`
* `DP.C87_linear`
* `DP.C87_too_few`
* `DP.C88_definite`
* `DP.C88_error`
* `DP.C88_list`
* `DP.C89_find`
* `DP.C89_literal`
* `DP.C89_loops`
* `DP.C89_not_found`
* `DP.C89_without`
* `DP.C90_char`
* `DP.C90_commas`
* `DP.C90_compact`
* `DP.C90_split`
* `DP.C91_class`
* `DP.C91_expression`
* `DP.C91_generated_code`
* `DP.C91_no_quotes`
* `DP.C91_parse`
* `DP.C91_single_quoted`
* `DP.C92_expression`
* `DP.C92_injection`
* `DP.C92_rules`
* `DP.C92_same_code`
* `DP.C93_code`
* `DP.C93_code_of_text`
* `DP.C93_count`
* `DP.C93_factor`
* `DP.C93_rules`
* `DP.C94_ends`
* `DP.C94_injective`
* `DP.C94_language`
* `DP.C94_round_trip`
* `DP.C94_without_escape`
* `DP.C95_injective`
* `DP.C95_language`
* `DP.C95_round_trip`
* `DP.C96_factored`
* `DP.C96_guarded`
* `DP.C96_int`
* `DP.C96_order`
* `DP.C96_same_iff`
* `DP.C96_scanned`
* `DP.C97_class`
* `DP.C97_linear`
* `DP.C97_quadratic`
* `DP.C97_quadratic_of_text`
* `DP.C98_again`
* `DP.C98_language`
* `DP.C98_linear`
* `DP.C98_round_trip`
* `DP.C98_unambiguous`
* `DP.C99_compare`
* `DP.C99_deep`
* `DP.C99_deep_errors`
* `DP.C99_deep_rules`
* `DP.C99_enough`
* `DP.C99_equal`
* `DP.C99_errors_of_text`
* `DP.C99_first_difference`
* `DP.C99_linear`
* `DP.C99_print_depth`
* `DP.C99_print_error`
* `DP.C99_print_error_too_few`
* `DP.C99_print_rules`
* `DP.C99_print_rules_too_few`
* `DP.C99_rules_of_text`
* `DP.C99_same_answer`
* `DP.C99_too_few`
