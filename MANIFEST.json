{"claims": [
{"property": "C01", "status": "proved", "theorems": ["Gearley.Props.C01_parse_language", "Gearley.Props.C01_parse_user_language"], "note": "language of the processed grammar; second theorem states it for the root of the grammar that was wrapped"},
{"property": "C02", "status": "proved", "theorems": ["Gearley.Props.C02_parse_returns", "Gearley.Props.C02_session_returns", "Gearley.Props.C02_forests"], "note": ""},
{"property": "C03", "status": "proved", "theorems": ["Gearley.Props.C03_diverges_iff", "Gearley.Props.C03_returns_without_cycle", "Gearley.Props.C03_no_panic", "Gearley.Props.C03_end_earleme_never_returns"], "note": "Exact: without hints a session diverges if and only if a predicted symbol on a cycle of one-symbol rules is completed; otherwise it returns. For every safe forest and every processed grammar, cyclic or not."},
{"property": "C04", "status": "proved", "theorems": ["Gearley.Props.C04_error_position", "Gearley.Props.C04_no_error", "Gearley.Props.C04_exact", "Gearley.Props.C04_ok", "Gearley.Props.C04_user", "Gearley.Props.C04_every_grammar", "Gearley.Props.C04_calculator", "Gearley.Props.C66_parse", "Gearley.Props.C04_user_cyclic", "Gearley.Props.C04_every_grammar_cyclic"], "note": "C04_exact: without look-ahead the position is exact. C04_user: for the grammar of the user, where what follows are tokens; Trimmed: make_proper of crate cfg removed rules with symbols that derive no non-empty string. C66_parse: the exact position with look-ahead. C04_user_cyclic, C04_every_grammar_cyclic: grammars with cycles, whenever parse returns."},
{"property": "C05", "status": "proved", "theorems": ["Gearley.Props.C05_viable_prefix", "Gearley.Props.C09_user"], "note": "C09_user: for the user's grammar."},
{"property": "C06", "status": "proved", "theorems": ["Gearley.Props.C06_alternative_tokens"], "note": ""},
{"property": "C07", "status": "proved", "theorems": ["Gearley.Props.C07_hints_harmless"], "note": ""},
{"property": "C08", "status": "proved", "theorems": ["Gearley.Props.C08_forest_irrelevant"], "note": "arbitrary call sequences"},
{"property": "C09", "status": "proved", "theorems": ["Gearley.Props.C09_predicted_symbols", "Gearley.Props.C09_user"], "note": "predicted_symbols after begin_earleme = ordinary symbols X with (chosen tokens)\u00b7X the beginning of a sentential form; any forest that does not panic. C09_user: among the tokens, exactly those that can come next in the user's grammar."},
{"property": "C10", "status": "proved", "theorems": ["Gearley.Props.C10_scan_unpredicted"], "note": "any state whatsoever, any forest."},
{"property": "C11", "status": "partial", "theorems": ["Gearley.Props.C11_partial", "Gearley.Props.C11_through", "Gearley.Props.C11_stale_predictions", "Gearley.Props.C11_stale_hint"], "note": "The full property is false. C11_stale_predictions: prediction rows of the earlier parse survive reset, so a later end_earleme returns true where a new recognizer returns false. C11_stale_hint: a hint pending when a position failed survives reset and makes the next parse fail. Proved: after any returning sequence of calls and a reset, with no pending hint, acceptance is that of a new recognizer (the input is a sentence), and the recognizer gets through wherever a new one does."},
{"property": "C12", "status": "proved", "theorems": ["Gearley.Props.C12_items_exact"], "note": "items of the current set = Earley items of the position, through the strictly increasing map of surviving sets to positions; acceptance and viability are C05, C06."},
{"property": "C13", "status": "proved", "theorems": ["Gearley.Props.C13_C14_simple", "Gearley.Props.C13_C14_compact", "Gearley.Props.C13_C14_returned_simple", "Gearley.Props.C13_C14_returned_compact"], "note": "Both bocages; graph shorter than 2^32 nodes/bytes; any honest hints. C13_C14_returned_*: grammars with cycles, sessions that returned."},
{"property": "C14", "status": "proved", "theorems": ["Gearley.Props.C13_C14_simple", "Gearley.Props.C13_C14_compact", "Gearley.Props.C13_C14_returned_simple", "Gearley.Props.C13_C14_returned_compact"], "note": "For plain input (no symbol scanned twice at a position, only terminals scanned) and root rules as produced by wrapping. C13_C14_returned_*: grammars with cycles, sessions that returned."},
{"property": "C15", "status": "proved", "theorems": ["Gearley.Props.C15_groups_decrease"], "note": "order of groups with any hints; no repeated item for distinct terminal tokens."},
{"property": "C16", "status": "proved", "theorems": ["Gearley.Props.C16_queue", "Gearley.Props.C16_heap_preserved"], "note": "all push/pop sequences"},
{"property": "C17", "status": "proved", "theorems": ["Gearley.Props.C17_vec2d", "Gearley.Props.C17_truncate_oob", "Gearley.Props.C17_pop_value", "Gearley.Props.C17_from_iter", "Gearley.Props.C17_pop_empty_breaks"], "note": "pop_item is required to be called on a non-empty current set; C17_pop_empty_breaks shows what happens otherwise"},
{"property": "C18", "status": "proved", "theorems": ["Gearley.Props.C18_roundtrip", "Gearley.Props.C18_walk"], "note": "Both node encodings; all payloads below 2^32."},
{"property": "C19", "status": "proved", "theorems": ["Gearley.Props.C19_same_forest"], "note": "All items of all sets and the finished nodes; any hints."},
{"property": "C20", "status": "partial", "theorems": ["Gearley.Props.C20_simple_partial", "Gearley.Props.C20_compact_partial", "Gearley.Props.C20_one_value", "Gearley.Props.C20_flattened", "Gearley.Props.C20_returns_simple", "Gearley.Props.C20_returns_compact", "Gearley.Props.C20_empty_simple", "Gearley.Props.C20_empty_compact", "Gearley.Props.C20_ambiguous_simple", "Gearley.Props.C20_ambiguous_compact"], "note": "Proved for every unambiguous parse, both bocages, every evaluator whose nulling appends; evaluation always returns. The part about ambiguous parses (one value per tree) is false for the code: C20_ambiguous_* are witnesses. On the empty input the two bocages differ."},
{"property": "C21", "status": "proved", "theorems": ["Gearley.Props.C21_restore_simple", "Gearley.Props.C21_restore_compact", "Gearley.Props.C21_simple", "Gearley.Props.C21_compact"], "note": "Graph level for any bocage, and values for every unambiguous parse."},
{"property": "C22", "status": "proved", "theorems": ["Gearley.Props.C22_prediction_table"], "note": ""},
{"property": "C23", "status": "proved", "theorems": ["Gearley.Props.C23_completion_table", "Gearley.Props.Ancestor.unique"], "note": ""},
{"property": "C24", "status": "partial", "theorems": ["Gearley.Props.C24_generated_partial", "Gearley.Props.C24_two_continuations"], "note": "find_gensyms marks exactly the symbols satisfying Generated, which does not count rules A ::= A b; uniqueness is proved when there is none for the marked symbol, and refuted in general by C24_two_continuations."},
{"property": "C25", "status": "proved", "theorems": ["Gearley.Props.C25_lookahead_rows"], "note": ""},
{"property": "C26", "status": "proved", "theorems": ["Gearley.Props.C26_finished_node"], "note": "any hints, any forest that does not panic."},
{"property": "C27", "status": "partial", "theorems": ["Gearley.Props.C27_fresh", "Gearley.Props.C27_partial", "Gearley.Props.C27_not_the_root"], "note": "C27_fresh says exactly what is_finished reports on a fresh recognizer: whether there is any rule for the empty string. C27_partial: correct if the root derives the empty string or nothing does. The full statement is false: C27_not_the_root."},
{"property": "C28", "status": "partial", "theorems": ["Gearley.Props.C28_trace", "Gearley.Props.C28_events_shifted", "Gearley.Props.C28_events_wrong", "Gearley.Props.C28_events_panic"], "note": "trace is right (all grammars, all sessions). events is wrong: C28_events_shifted says exactly what it yields and when it panics; C28_events_wrong and C28_events_panic are concrete."},
{"property": "C29", "status": "partial", "theorems": ["Gearley.Props.C29_exact", "Gearley.Props.C29_sound", "Gearley.Props.C29_complete_partial", "Gearley.Props.C29_missing", "Gearley.Props.C09_user"], "note": "C29_exact: exactly the symbols after the dot of Earley's items. Sound. Completeness fails (C29_missing); C29_complete_partial says what remains true. C09_user: tokens that are reported can come next in the user's grammar."},
{"property": "C30", "status": "partial", "theorems": ["Gearley.Props.C30_partial", "Gearley.Props.C30_with_hint", "Gearley.Props.C30_session", "Gearley.Props.C30_skip", "Gearley.Props.C30_compact_panics", "Gearley.Props.C30_stale_hint"], "note": "Equality of completion by hand and end_earleme as programs (state, result, panic, divergence), for forests whose begin_sum does nothing or clients using complete_entire_sum, without pending hint. The two missing cases are false and have witnesses: the compact bocage panics, and a pending hint is not cleared."},
{"property": "C31", "status": "proved", "theorems": ["Gearley.Props.C31_all_combinations", "Gearley.Props.C31_mem_combos", "Gearley.Props.C31_length_combos", "Gearley.Props.C31_nodup_combos", "Gearley.Props.C31_extend_new", "Gearley.Props.C31_extend_later", "Gearley.Props.C31_empty_factor"], "note": "Also shown: extend on a product that already has factors adds their pointers again, and an empty factor is read out of bounds."},
{"property": "C32", "status": "partial", "theorems": ["Gearley.Props.C32_terminal_list", "Gearley.Props.C32_unknown_word", "Gearley.Props.C32_tokenizing", "Gearley.Props.C32_position_lost", "Gearley.Props.C32_terminal_list_user", "Gearley.Props.C32_unknown_word_user", "Gearley.Props.C32_tokenizing_user", "Gearley.Props.C32_tokenizing_position"], "note": "parse_tokenizing: proved in full. parse_terminal_list: Ok(true) exactly on sentences and never Ok(false), proved; but a failed parse is reported as Finish without its position (C32_terminal_list says always, C32_position_lost is concrete). The _user theorems say the same for the grammar of the user; C32_tokenizing_position is about the errors of parse_tokenizing."},
{"property": "C33", "status": "proved", "theorems": ["Gearley.Props.C33_completion", "Gearley.Props.C33_capacities", "Gearley.Props.C33_reservations", "Gearley.Props.C33_memory_overflow", "Gearley.Props.C33_token_overflow"], "note": "Debug-build arithmetic for any word size of at least 32 bits. Capacities are not part of the state of the model, so results cannot depend on them. Beyond the bounds the hints panic."},
{"property": "C34", "status": "proved", "theorems": ["Gearley.Props.C34_order", "Gearley.Props.C34_blocks", "Gearley.Props.C34_unary_by_number", "Gearley.Props.C34_not_total", "Gearley.Props.C34_both_ways", "Gearley.Props.C34_both_ways_iff"], "note": "Also shown: one-symbol rules are ordered by old number, the comparison is not a total order, and the numbering condition is exact; the sort itself is in crate cfg."},
{"property": "C35", "status": "proved", "theorems": ["Gearley.Props.C35_lookup"], "note": ""},
{"property": "C36", "status": "proved", "theorems": ["Gearley.Props.C36_simple", "Gearley.Props.C36_compact", "Gearley.Props.C36_limit", "Gearley.Props.C36_made", "Gearley.Props.C36_parser", "Gearley.Props.C36_every_grammar", "Gearley.Props.C36_any_grammar"], "note": "C36_every_grammar, C36_any_grammar: for every user grammar of bounded size there is a parser for which both bocages can be created."},
{"property": "C37", "status": "proved", "theorems": ["Gearley.Props.C37_predict_union"], "note": ""},
{"property": "C38", "status": "proved", "theorems": ["Gearley.Props.C38_simple", "Gearley.Props.C38_compact", "Gearley.Props.C38_functional_simple", "Gearley.Props.C38_functional_compact"], "note": "Over any sequence of calls."},
{"property": "C39", "status": "proved", "theorems": ["Gearley.Props.C39_exhaustion_final"], "note": ""},
{"property": "C40", "status": "proved", "theorems": ["Gearley.Props.C40_item_order", "Gearley.Props.C40_total_preorder"], "note": ""},
{"property": "C41", "status": "partial", "theorems": ["Gearley.Props.C41_partial", "Gearley.Props.C41_characters", "Gearley.Props.C41_panics", "Gearley.Props.C41_wrong_column"], "note": "The property is false: begin_earleme is never called, so every text whose first non-blank character belongs to the notation panics (C41_panics). C41_partial describes all other texts exactly: right line, column always 1; C41_wrong_column is a witness."},
{"property": "C42", "status": "proved", "theorems": ["Gearley.Props.C42_sort_irrelevant", "Gearley.Props.C42_repeated_token", "Gearley.Props.C42_needs_order"], "note": "C42_repeated_token shows that distinctness of the tokens is needed. Hypothesis UnaryOrdered: one-symbol rules numbered with the left-hand side below the right-hand side (not established by the code). C42_needs_order shows that the hypothesis is needed."},
{"property": "C43", "status": "proved", "theorems": ["Gearley.Props.C43_cubic", "Gearley.Props.C43_chains", "Gearley.Props.C43_any"], "note": "C43_cubic: one-symbol rules ordered. C43_any: every grammar without one-symbol cycles, whatever the order, with the factor 4^u (time) and 2^u (memory) for u one-symbol rules; C43_chains: the factor is the number of chains of one-symbol rules."},
{"property": "C44", "status": "proved", "theorems": ["Gearley.Props.C44_packed_simple", "Gearley.Props.C44_packed_compact", "Gearley.Props.C44_view_unique", "Gearley.Props.C44_no_duplicates", "Gearley.Props.C44_needs_order_simple", "Gearley.Props.C44_needs_order_compact", "Gearley.Props.C44_one_simple", "Gearley.Props.C44_one_compact"], "note": "Packs is defined in Spec/Packed.lean. Graphs of fewer than 2^32 nodes (bytes). Hypothesis UnaryOrdered: one-symbol rules numbered with the left-hand side below the right-hand side (not established by the code). C44_needs_order_* shows that the hypothesis is needed. C44_one_* do without it for inputs with one tree."},
{"property": "C45", "status": "proved", "theorems": ["Gearley.Props.C45_values_simple", "Gearley.Props.C45_values_compact", "Gearley.Props.C45_one_value_per_alternative", "Gearley.Props.C45_unambiguous", "Gearley.Props.C45_needs_order"], "note": "PackedVals is defined in Spec/Packed.lean. Hypothesis: the wrapping rule occurs once in the grammar. Hypothesis UnaryOrdered: one-symbol rules numbered with the left-hand side below the right-hand side (not established by the code). C45_needs_order shows that the hypothesis is needed."},
{"property": "C46", "status": "proved", "theorems": ["Gearley.Props.C46_built", "Gearley.Props.C46_language", "Gearley.Props.C46_unknown_token"], "note": "crate cfg enters through its contract CrateOK (with an instance, plainCrate_ok) and through BinarizedOK for the result of binarization (with an instance, plainCfg_ok). C46_unknown_token: a removed symbol as first token is a panic."},
{"property": "C47", "status": "proved", "theorems": ["Gearley.Props.C47_climb", "Gearley.Props.C47_exponential", "Gearley.Props.C47_chains"], "note": "a negative result about the code: the numbering condition of C15 and C43 is needed. C47_chains: matching upper bound for every order."},
{"property": "C48", "status": "proved", "theorems": ["Gearley.Props.C48_quadratic", "Gearley.Props.C48_unambiguous"], "note": "Operations on the forest counted as in C43."},
{"property": "C49", "status": "proved", "theorems": ["Gearley.Props.C49_lower", "Gearley.Props.C49_right_recursion"], "note": ""},
{"property": "C50", "status": "proved", "theorems": ["Gearley.Props.C50_linear", "Gearley.Props.C50_left_linear", "Gearley.Props.C50_any", "Gearley.Props.C50_left_linear_any"], "note": "Operations on the forest counted as in C43. The _any theorems need no order of one-symbol rules, only that they have no cycle."},
{"property": "C51", "status": "proved", "theorems": ["Gearley.Props.C51_calls", "Gearley.Props.C51_parse", "Gearley.Props.C51_left_linear", "Gearley.Props.C51_sharp", "Gearley.Props.C51_usize", "Gearley.Props.C51_usize_parse", "Gearley.Props.C51_usize_terminal_list", "Gearley.Props.C51_usize_tokenizing"], "note": "debug build; sharpness for sessions without hints. C51_usize: a usize of 32 to 64 bits (wasm32) makes no difference to the recognizer and the drivers below 2^32 calls or tokens."},
{"property": "C52", "status": "proved", "theorems": ["Gearley.Props.C52_needed_kept", "Gearley.Props.C52_bounded", "Gearley.Props.C52_left_linear", "Gearley.Props.C52_right_recursion"], "note": "upper bound needs input between markers (Marked) and no end marker in the input"},
{"property": "C53", "status": "proved", "theorems": ["Gearley.Props.C53_work", "Gearley.Props.C53_parse", "Gearley.Props.C53_right_linear", "Gearley.Props.C53_right_recursion", "Gearley.Props.C53_chains", "Gearley.Props.C53_right_linear_any"], "note": "Number of forest operations with look-ahead. Grammar hypotheses: one-symbol rules ordered (C53_chains and C53_right_linear_any: no cycle of one-symbol rules); for C53_parse only the end of the input may follow a symbol that derives long strings; for right-linear grammars with exact FOLLOW sets this holds."},
{"property": "C54", "status": "proved", "theorems": ["Gearley.Props.C54_counted", "Gearley.Props.C54_counted_parse", "Gearley.Props.C54_forests", "Gearley.Props.C54_new", "Gearley.Props.C54_size", "Gearley.Props.C54_cubic", "Gearley.Props.C54_quadratic", "Gearley.Props.C54_left_linear", "Gearley.Props.C54_right_linear", "Gearley.Props.C54_all_trees_simple", "Gearley.Props.C54_all_trees_compact", "Gearley.Props.C54_right_recursion", "Gearley.Props.C54_any", "Gearley.Props.C54_left_linear_any", "Gearley.Props.C54_right_linear_any", "Gearley.Props.C54_any_trees_simple", "Gearley.Props.C54_any_trees_compact"], "note": "Size of the forest; grammar hypotheses as in C43, C48, C50, C53. The _any theorems need no order of one-symbol rules."},
{"property": "C55", "status": "proved", "theorems": ["Gearley.Props.C55_trees", "Gearley.Props.C55_language", "Gearley.Props.C55_accepts", "Gearley.Props.C55_values_simple", "Gearley.Props.C55_values_compact", "Gearley.Props.C55_every_grammar"], "note": "Relative to the stated contract of crate cfg (Binarizes, EmptyCfg, CrateOK); C55_every_grammar shows that the contract can be met for every grammar without cycles."},
{"property": "C56", "status": "partial", "theorems": ["Gearley.Props.C56_unambiguous", "Gearley.Props.C56_accepts", "Gearley.Props.C56_partial_simple", "Gearley.Props.C56_partial_compact", "Gearley.Props.C56_long_numbers_simple", "Gearley.Props.C56_long_numbers_compact", "Gearley.Props.C56_shifted_simple", "Gearley.Props.C56_shifted_compact", "Gearley.Props.C56_no_order"], "note": "The full property is false for the code: numbers of three or more digits are misread, and the evaluator's table is indexed by the user's numbers although leaf gets the parser's (witness theorems)."},
{"property": "C57", "status": "proved", "theorems": ["Gearley.Props.C57_rounds_simple", "Gearley.Props.C57_rounds_compact", "Gearley.Props.C57_unique", "Gearley.Props.C57_unambiguous", "Gearley.Props.C57_linear", "Gearley.Props.C57_linear_simple", "Gearley.Props.C57_linear_compact", "Gearley.Props.C57_exponential_simple", "Gearley.Props.C57_exponential_compact", "Gearley.Props.C57_linear_tree", "Gearley.Props.C57_rounds_one_simple", "Gearley.Props.C57_rounds_one_compact", "Gearley.Props.C57_needs_order"], "note": "Exact number of rounds (with a bound of m rounds there is a result iff m exceeds it). The number of results is not limited to 2^32 here; values beyond that are C20's and C45's matter. Nodes are appended for rules with removed symbols, so that a bound on the graph is needed if there are such rules. C57_rounds_simple and C57_rounds_compact have the hypothesis UnaryOrdered: one-symbol rules numbered with the left-hand side below the right-hand side (not established by the code); C57_needs_order shows that it is needed. For inputs with one tree nothing is assumed about the order (C57_rounds_one_*, C57_linear_*). C57_linear is about all trees of grammars without cycles, C57_linear_tree about the only tree for any grammar."},
{"property": "C58", "status": "proved", "theorems": ["Gearley.Props.C58_values_simple", "Gearley.Props.C58_values_compact", "Gearley.Props.C58_number", "Gearley.Props.C58_trees", "Gearley.Props.C58_unique", "Gearley.Props.C58_fewer_values", "Gearley.Props.C58_arguments", "Gearley.Props.C58_too_many_arguments", "Gearley.Props.C58_needs_order"], "note": "Under the assumption that the parser's numbers go up in one-symbol rules (UnaryDown; the code does not establish it, see defects 12 and 17). The alternatives are returned in some order. What crate cfg delivers is assumed as in C55. C58_needs_order shows that the hypothesis is needed."},
{"property": "C59", "status": "partial", "theorems": ["Gearley.Props.C59_accepts", "Gearley.Props.C59_number_simple", "Gearley.Props.C59_number_compact", "Gearley.Props.C59_partial_simple", "Gearley.Props.C59_partial_compact", "Gearley.Props.C59_wrong_operands", "Gearley.Props.C59_wrong_value", "Gearley.Props.C59_unreachable", "Gearley.Props.C59_shifted_simple", "Gearley.Props.C59_shifted_compact", "Gearley.Props.C59_no_order"], "note": "The full property is false for the code. Acceptance and the number of values are proved for all texts and all parsers (C59_accepts, C59_number). The values of all groupings are proved for at most two operations, numbers of at most two digits and tokens that kept their numbers (C59_partial). Witnesses against the rest: C59_wrong_operands, C59_wrong_value (1-0-0-0 gives 0), C59_unreachable (9-9-9-9 panics), C59_shifted and C59_no_order (every renumbering leaves a character whose lookup panics). The code does not establish that numbers go up in one-symbol rules (UnaryDown, see DESIGN section 4, 12 and 17); it is an assumption on the parser, met by a stable sort."},
{"property": "C60", "status": "proved", "theorems": ["Gearley.Props.C60_session", "Gearley.Props.C60_parse", "Gearley.Props.C60_terminal_list", "Gearley.Props.C60_tokenizing", "Gearley.Props.C60_from_grammar", "Gearley.Props.C60_calls", "Gearley.Props.C60_run", "Gearley.Props.C60_sharp"], "note": "Equality of programs with and without logging; C60_sharp shows that the condition on single calls is needed."},
{"property": "C61", "status": "partial", "theorems": ["Gearley.Props.C61_lexer", "Gearley.Props.C61_parser", "Gearley.Props.C61_accepts", "Gearley.Props.C61_nested", "Gearley.Props.C61_end", "Gearley.Props.C61_square_partial", "Gearley.Props.C61_no_designator", "Gearley.Props.C61_wrong_designator", "Gearley.Props.C61_trees", "Gearley.Props.C61_forests"], "note": "Square brackets are not nested and array designators are rejected (C61_no_designator, C61_wrong_designator); C61_square_partial is what holds of square brackets."},
{"property": "C62", "status": "partial", "theorems": ["Gearley.Props.C62_basic", "Gearley.Props.C62_unknown_word", "Gearley.Props.C62_advanced", "Gearley.Props.C62_c", "Gearley.Props.C62_history", "Gearley.Props.C62_replies", "Gearley.Props.C62_never_unfinished", "Gearley.Props.C62_verdict", "Gearley.Props.C62_empty_input", "Gearley.Props.C62_trailing_space", "Gearley.Props.C62_empty_witness", "Gearley.Props.C62_c_witness"], "note": "Proved for inputs that are words separated by single spaces. C62_empty_input, C62_trailing_space and C62_empty_witness: empty inputs and spaces at the end are rejected even if the words before are a sentence."},
{"property": "C63", "status": "proved", "theorems": ["Gearley.Props.C63_verdict", "Gearley.Props.C63_returns", "Gearley.Props.C63_diverges", "Gearley.Props.C63_infinite", "Gearley.Props.C63_diverges_iff_no_lookahead", "Gearley.Props.C63_user_verdict", "Gearley.Props.C63_user_returns", "Gearley.Props.C63_user_infinite", "Gearley.Props.C63_user_diverges", "Gearley.Props.C63_every_grammar", "Gearley.Props.uacyclic_iff", "Gearley.Props.C66_parse", "Gearley.Props.C04_user_cyclic"], "note": "C63_user_* are about the user's grammar, the others about the binarized grammar. `Props/UserCycle` has a grammar and a string with exactly one tree on which parse does not return. C66_parse: the exact condition with look-ahead. C04_user_cyclic: the reported positions."},
{"property": "C64", "status": "proved", "theorems": ["Gearley.Props.C64_trees_simple", "Gearley.Props.C64_trees_compact", "Gearley.Props.C64_values_simple", "Gearley.Props.C64_values_compact", "Gearley.Props.C64_empty", "Gearley.Props.C64_empty_simple", "Gearley.Props.C64_empty_compact"], "note": "Graph shorter than 2^32 and room for restored nullable symbols, as in C55. ReadsAs: flattening the rules made by binarization and putting removed nullable symbols back gives the user's tree."},
{"property": "C65", "status": "proved", "theorems": ["Gearley.Props.C65_linear", "Gearley.Props.C65_memory", "Gearley.Props.C65_calculator", "Gearley.Props.C65_unambiguous", "Gearley.Props.C65_acyclic", "Gearley.Props.C65_every_grammar"], "note": "U: user's grammar, LR(1) with the wrapped root (Knuth), empty rules allowed, no rule twice, every symbol in a rule yields a string. Assumptions on the crate cfg: FOLLOW sets exact (textbook rules, rules in reach), binarized rules with symbols that only derive the empty string removed (Trimmed; void if there are none). At most lrCost * (k + 1) operations for k tokens, and as many items and forest nodes (times 9 bytes). C65_every_grammar: for each such grammar there is a parser meeting the assumptions. C65_calculator: precedenced_math is LR(1) (checked SLR(1) table)."},
{"property": "C66", "status": "proved", "theorems": ["Gearley.Props.C66_diverges_iff", "Gearley.Props.C66_through_iff", "Gearley.Props.C66_chart", "Gearley.Props.C66_lower", "Gearley.Props.C66_hints_prune", "Gearley.Props.C66_parse"], "note": "For all forests with SafeStart, all grammars Prepared (cyclic or not), any hints. C66_parse: exactly when parse returns and which token it reports, with look-ahead and any cycles."},
{"property": "C67", "status": "proved", "theorems": ["Gearley.Props.C67_size_simple", "Gearley.Props.C67_size_compact", "Gearley.Props.C67_work_simple", "Gearley.Props.C67_cubic_simple", "Gearley.Props.C67_cubic_compact"], "note": "Hypotheses: one-symbol rules numbered with the left-hand side below the right-hand side, as for C44; tokens at different positions differ in symbol or value (parse gives them their positions as values). The minimum with 2^32 is there because handles are 32-bit numbers."}
]}
