{"id": "C01", "title": "parse accepts exactly the language", "statement": "On a freshly constructed recognizer, `parse(tokens)` returns `Ok(true)` if and only if the token string is derivable from the grammar's root symbol in the processed (binarized, nulling-eliminated, wrapped) grammar.", "quantifier": "all processed grammars meeting the stated table preconditions, all token strings of known symbols, all non-panicking forests", "why_tests_cant": "There are infinitely many grammars and inputs; a recognizer bug (a missed completion, a dropped set, a wrong look-ahead row) shows only on particular grammar/input combinations.", "anchors": ["gearley-utils/src/parse.rs: RecognizerParseExt::parse", "gearley-recognizer/src/recognizer.rs: scan, end_earleme, complete, finished_node"]}
{"id": "C02", "title": "parsing terminates without panic", "statement": "For every token string of known symbols, `parse` on a fresh recognizer returns (no panic, no infinite loop), provided the grammar has no cycle of single-symbol rules.", "quantifier": "all acyclic processed grammars and all inputs", "why_tests_cant": "Termination and absence of index/unwrap panics must hold for every input; testing only samples terminating runs.", "anchors": ["gearley-recognizer/src/recognizer.rs: complete_all_sums_entirely, complete, complete_medial_items, complete_predictions, prediction_pass", "gearley-recognizer/src/binary_heap.rs"]}
{"id": "C03", "title": "single-symbol rule cycles never terminate", "statement": "If the grammar has a rule `A ::= A` on a predicted symbol that gets completed, `end_earleme` never returns: the completion loop runs forever.", "quantifier": "all numbers of loop iterations", "why_tests_cant": "Non-termination cannot be observed by a finite test.", "anchors": ["gearley-recognizer/src/recognizer.rs: complete_all_sums_entirely"]}
{"id": "C04", "title": "parse error position", "statement": "With look-ahead hints as set by `parse`, if `parse` fails with position i then the tokens up to and including i+1 are not a prefix of any sentence; and if the first offending token is k then the reported position is k-1 or k (or, when nothing is offending, no error is returned). An error is returned exactly if the (non-empty) tokens are not the beginning of a sentence. With look-ahead turned off the reported position is exactly that of the first offending token. All of this holds with respect to the user's own grammar.", "quantifier": "all grammars, all inputs, all failing positions", "why_tests_cant": "The position claim relates the run on a prefix to all possible continuations of the input.", "anchors": ["gearley-utils/src/parse.rs: parse", "gearley-recognizer/src/recognizer.rs: end_earleme, is_exhausted"]}
{"id": "C05", "title": "end_earleme detects viable prefixes exactly", "statement": "Without look-ahead hints, `end_earleme` returns true if and only if the tokens scanned so far are the beginning of some string derivable from the wrapped grammar's root, i.e. the parse can still be continued.", "quantifier": "all grammars and all sequences of scanned token sets", "why_tests_cant": "Viability quantifies over all infinitely many continuations.", "anchors": ["gearley-recognizer/src/recognizer.rs: end_earleme, is_exhausted"]}
{"id": "C06", "title": "alternative tokens per position", "statement": "If several tokens are scanned at a position, the recognizer is finished at the current position if and only if one token can be chosen per position such that the chosen string is in the language. In particular `is_finished` after k positions decides membership of the k-token prefix.", "quantifier": "all sequences of finite token sets", "why_tests_cant": "Choices multiply exponentially; a test can only try a few token lattices.", "anchors": ["gearley-recognizer/src/recognizer.rs: scan, is_finished, finished_node"]}
{"id": "C07", "title": "honest look-ahead hints do not change acceptance", "statement": "Calling `set_hint` with the token that is really scanned next (or not calling it) never changes whether the input is accepted, provided the FIRST/FOLLOW rows contain at least FIRST and FOLLOW.", "quantifier": "all grammars, inputs, and all choices of which positions get a hint", "why_tests_cant": "A wrongly rejected item shows up only for particular grammars, at particular positions; all hint placements must be covered.", "anchors": ["gearley-recognizer/src/recognizer.rs: complete_medial_items, complete_predictions, Lookahead", "gearley-recognizer/src/lookahead.rs", "gearley-default-grammar/src/lib.rs: lookahead_set, lhs_lr_set, populate_lr_sets"]}
{"id": "C08", "title": "the forest does not influence recognition", "statement": "Two recognizers for the same grammar fed the same calls report the same results from every recognition query (`end_earleme`, `is_finished`, `is_exhausted`, `earleme`, predicted symbols, dots and origins of medial items) whatever forest implementation is plugged in, as long as the forests do not panic.", "quantifier": "all forests, all call sequences", "why_tests_cant": "Forests are a user-supplied trait implementation; no finite set of implementations covers all.", "anchors": ["gearley-recognizer/src/recognizer.rs: Recognizer<G,F,P>", "gearley-forest/src/forest.rs"]}
{"id": "C09", "title": "predicted symbols are exact", "statement": "Between `begin_earleme` and the next `end_earleme` (without hints), `predicted_symbols` yields exactly the non-generated symbols that can start at the current position in some parse of a continuation of the tokens scanned so far. In terms of the user's grammar: among its tokens, exactly those are predicted that can come next in a sentence.", "quantifier": "all grammars, all input prefixes", "why_tests_cant": "Exactness quantifies over all continuations and all left-corner chains.", "anchors": ["gearley-recognizer/src/recognizer.rs: predicted_symbols, prediction_pass", "gearley-recognizer/src/predict.rs"]}
{"id": "C10", "title": "scanning an unpredicted token changes nothing", "statement": "Scanning a non-generated symbol that is not predicted at the current position leaves the recognizer's chart, queue and predictions unchanged; only a forest leaf is created.", "quantifier": "all reachable recognizer states and symbols", "why_tests_cant": "Must hold in every reachable state.", "anchors": ["gearley-recognizer/src/recognizer.rs: scan, complete"]}
{"id": "C11", "title": "reset restores a fresh recognizer", "statement": "After `reset`, the recognizer behaves as a new one: every later call sequence gives the results it would give on a fresh recognizer.", "quantifier": "all histories before the reset, all call sequences after", "why_tests_cant": "A history-quantified equivalence: stale state left behind shows only after particular earlier parses.", "anchors": ["gearley-recognizer/src/recognizer.rs: reset, end_earleme", "gearley-recognizer/src/lookahead.rs"]}
{"id": "C12", "title": "dropping unreachable sets is invisible to recognition", "statement": "Discarding Earley sets that no current item originates from never changes acceptance or later viability, for any grammar and input; surviving set numbers are in strictly increasing correspondence with input positions.", "quantifier": "all grammars and inputs, all points at which sets are dropped", "why_tests_cant": "A set needed later might be dropped only for specific nesting structures of the input.", "anchors": ["gearley-recognizer/src/recognizer.rs: remove_unreachable_sets, earleme", "gearley-vec2d/src/lib.rs: truncate"]}
{"id": "C13", "title": "forest soundness", "statement": "Every tree represented by the node returned from `finished_node` is a derivation tree of exactly the scanned input, rooted in the grammar's root.", "quantifier": "all grammars, inputs and trees in the forest", "why_tests_cant": "Ambiguous forests hold exponentially many trees.", "anchors": ["gearley-recognizer/src/recognizer.rs: finished_node, complete_sum", "simple-bocage/src/bocage.rs", "gearley-forest/src/forest.rs"]}
{"id": "C14", "title": "forest completeness without repetition", "statement": "The forest built by a successful parse represents every derivation tree of the input, and represents no tree twice.", "quantifier": "all grammars, inputs and derivation trees", "why_tests_cant": "Requires considering every derivation of every input.", "anchors": ["gearley-recognizer/src/recognizer.rs: complete_entire_sum, complete_medial_items, complete_predictions", "simple-bocage/src/bocage.rs: sum, product, push_summand"]}
{"id": "C15", "title": "each symbol/origin group is completed once per position", "statement": "While a position is completed, groups of completed items come off the queue in strictly decreasing (origin, left-hand side) order, so each symbol/origin pair is summed once and no Earley item is created twice — for grammars whose single-symbol rules are numbered with lhs below rhs.", "quantifier": "all grammars satisfying the numbering condition, all inputs", "why_tests_cant": "A duplicate needs a particular interleaving of completions.", "anchors": ["gearley-recognizer/src/recognizer.rs: complete_all_sums_entirely, next_sum, next_summand", "gearley-forest/src/item.rs: Ord", "gearley-default-grammar/src/lib.rs: remap_symbols"]}
{"id": "C16", "title": "completion queue is a correct max-priority queue", "statement": "Pushing and popping keeps the multiset of queued items; a pop returns an item of maximal (origin, dot); the heap shape invariant is preserved by both.", "quantifier": "all queue states reachable by any push/pop sequence", "why_tests_cant": "All push/pop histories of any length.", "anchors": ["gearley-recognizer/src/binary_heap.rs: heap_push, heap_pop, sift_up, sift_down"]}
{"id": "C17", "title": "Vec2d is a list of sets", "statement": "Every `Vec2d` operation (`new`, `clear`, `push_item`, `pop_item`, `next_set`, `extend_with_set`, `truncate`, `truncate_chart`, `last`, indexing, `len`, collecting) acts as the corresponding operation on a non-empty list of sets whose last element is under construction; `truncate(n)` keeps the first n sets and the last one.", "quantifier": "all operation sequences, all element types", "why_tests_cant": "All sequences of operations of any length.", "anchors": ["gearley-vec2d/src/lib.rs: Vec2d"]}
{"id": "C18", "title": "compact graph encoding round-trips", "statement": "A node pushed on the compact graph reads back as the same node at its handle with the size that was written, whatever its payload (any 32-bit values), and stays readable unchanged after any number of later pushes; stepping by the reported size visits exactly the pushed nodes in order.", "quantifier": "all node sequences with 32-bit payloads", "why_tests_cant": "2^64 payload pairs and unbounded graphs.", "anchors": ["compact-bocage/src/graph.rs: push, get, get_node_size, push_expanded"]}
{"id": "C19", "title": "both bocages represent the same forest", "statement": "Driven by the same recognizer run, the simple and the compact bocage represent the same multiset of derivation trees at corresponding handles.", "quantifier": "all grammars and inputs", "why_tests_cant": "Quantifies over all runs.", "anchors": ["simple-bocage/src/bocage.rs", "compact-bocage/src/bocage.rs"]}
{"id": "C20", "title": "evaluation of an unambiguous parse", "statement": "For an unambiguous parse, `evaluate` returns exactly one value, the bottom-up value of the unique derivation tree with generated symbols flattened away, for every evaluator. With ambiguity it should return one value per tree.", "quantifier": "all forests without ambiguity, all evaluators", "why_tests_cant": "All trees of any depth and all evaluators.", "anchors": ["simple-bocage/src/traverse.rs: evaluate", "compact-bocage/src/traverse.rs: evaluate"]}
{"id": "C21", "title": "eliminated nulling symbols reappear in evaluation", "statement": "When a rule had a nullable symbol eliminated on the left (or right), evaluation of that rule sees the nulling subtree's value first (or last) among its arguments.", "quantifier": "all products, all rule tables", "why_tests_cant": "All combinations of rule and nullable side in all forests.", "anchors": ["simple-bocage/src/bocage.rs: postprocess_product_tree_node", "compact-bocage/src/bocage.rs: postprocess_product_tree_node"]}
{"id": "C22", "title": "prediction table is the left-corner closure", "statement": "Row A of the prediction table contains non-generated B if and only if B is reachable from A by zero or more left-corner steps (first symbols of rules, looking through generated symbols).", "quantifier": "all processed grammars", "why_tests_cant": "All grammars of any size.", "anchors": ["gearley-default-grammar/src/lib.rs: populate_prediction_matrix, resolve_lhs / populate_prediction_matrix loop"]}
{"id": "C23", "title": "completion table is complete and ordered", "statement": "For every non-generated symbol, the completion table lists each rule starting with that symbol exactly once with the right rule number, kind and predicted ancestor, two-symbol rules before one-symbol rules; for each generated symbol the table holds its unique continuation.", "quantifier": "all processed grammars", "why_tests_cant": "All grammars of any size.", "anchors": ["gearley-default-grammar/src/lib.rs: compute_completion_table"]}
{"id": "C24", "title": "generated-symbol detection", "statement": "A symbol is classified as generated only if it is the left-hand side of exactly one two-symbol rule, the first symbol of exactly one two-symbol rule, never a second symbol, and has no external origin; therefore every continuation of a generated symbol is unique.", "quantifier": "all rule lists", "why_tests_cant": "All rule lists.", "anchors": ["gearley-default-grammar/src/lib.rs: find_gensyms"]}
{"id": "C25", "title": "look-ahead rows are addressed correctly", "statement": "For a rule with a second symbol the look-ahead row consulted is that symbol's FIRST row, for a one-symbol rule the left-hand side's FOLLOW row, and a completed left-hand side's row is its FOLLOW row.", "quantifier": "all grammars and rules", "why_tests_cant": "All grammars of any size.", "anchors": ["gearley-default-grammar/src/lib.rs: populate_lr_sets, lookahead_set, lhs_lr_set, rhs1_or_lhs"]}
{"id": "C26", "title": "finished_node finds the accepting item", "statement": "After `end_earleme`, `finished_node` returns the node of an accepting item whenever the current set has one, although it inspects only the first item, provided the end marker is the smallest symbol.", "quantifier": "all reachable states", "why_tests_cant": "All reachable sets of any size.", "anchors": ["gearley-recognizer/src/recognizer.rs: finished_node, sort_medial_items", "gearley-default-grammar/src/lib.rs: populate_start_sym, remap_symbols"]}
{"id": "C27", "title": "empty input is accepted by a fresh recognizer only if the root is nullable", "statement": "On a fresh recognizer (before any token) `is_finished` is true if and only if the grammar's root derives the empty string.", "quantifier": "all grammars", "why_tests_cant": "Depends on the grammar's set of nulling rules.", "anchors": ["gearley-recognizer/src/recognizer.rs: finished_node", "gearley-default-grammar/src/lib.rs: populate_nulling"]}
{"id": "C28", "title": "reported events belong to the reported item", "statement": "Every event yielded by `events` is the event attached to the grammar position (symbol predicted, or rule and dot) that the current state contains.", "quantifier": "all grammars and states", "why_tests_cant": "All tables and states.", "anchors": ["gearley-recognizer/src/event.rs: events, trace", "gearley-default-grammar/src/lib.rs: events, trace"]}
{"id": "C29", "title": "expected_terminals reports what can be scanned", "statement": "Every symbol yielded by `expected_terminals` is a symbol that can come directly after an item of the current position; terminals that can be scanned next should all be reported.", "quantifier": "all grammars and reachable states", "why_tests_cant": "All reachable states.", "anchors": ["gearley-recognizer/src/event.rs: expected_terminals"]}
{"id": "C30", "title": "manual completion equals automatic completion", "statement": "Completing sums by hand (`next_sum`, `next_summand`, `push_summand`, `complete_sum` until none is left, then `advance_after_completion`) has the same effect as `end_earleme`.", "quantifier": "all states, all forests", "why_tests_cant": "All states and user supplied forests.", "anchors": ["gearley-recognizer/src/recognizer.rs: CompleteSum, next_sum, complete_entire_sum, skip_entire_sum"]}
{"id": "C31", "title": "CartesianProduct enumerates every combination once", "statement": "After loading non-empty factors, repeated `advance` visits every combination exactly once, first factor fastest, then reports exhaustion and is back at the first combination.", "quantifier": "all lists of non-empty factors", "why_tests_cant": "All factor counts and lengths.", "anchors": ["gearley-utils/src/cartesian_product.rs"]}
{"id": "C32", "title": "result classes of the convenience parsers", "statement": "`parse_tokenizing` and `parse_terminal_list` return `Ok(true)` exactly on sentences, never `Ok(false)`, and any failed parse is reported with its position.", "quantifier": "all grammars and inputs", "why_tests_cant": "All inputs.", "anchors": ["gearley-utils/src/parse.rs: parse_terminal_list, parse_tokenizing"]}
{"id": "C33", "title": "capacity hints are always usable", "statement": "For every memory limit and token count below the overflow bound, the default capacity hints never panic, reserve at least 32 sets, and reserve completion room as documented; capacities do not affect results.", "quantifier": "all memory limits", "why_tests_cant": "2^64 values.", "anchors": ["gearley-recognizer/src/perf_hint.rs"]}
{"id": "C34", "title": "symbol order relation", "statement": "The relation `remap_symbols` sorts by places the end marker before every ordinary symbol and every ordinary symbol before every generated one, and never orders two symbols both ways (for grammars whose generated symbols are numbered above ordinary ones and whose end marker occurs in no one-symbol rule).", "quantifier": "all rule lists", "why_tests_cant": "All rule lists.", "anchors": ["gearley-default-grammar/src/lib.rs: remap_symbols"]}
{"id": "C35", "title": "item lookup finds exactly the waiting items", "statement": "For any sorted set, the binary search plus prefix scan used in completion visits exactly the items whose next symbol is the completed one.", "quantifier": "all sorted sets, all symbols", "why_tests_cant": "All set sizes and key distributions.", "anchors": ["gearley-recognizer/src/recognizer.rs: complete_medial_items, sort_medial_items"]}
{"id": "C36", "title": "nulling nodes are addressable", "statement": "After a bocage is created, the handle for each nulling symbol refers to the node of that symbol: a leaf, or the product of the two nulling factors of an intermediate rule.", "quantifier": "all ForestInfo tables", "why_tests_cant": "All tables.", "anchors": ["simple-bocage/src/bocage.rs: initialize_nulling", "compact-bocage/src/bocage.rs: initialize_nulling"]}
{"id": "C37", "title": "bit-set prediction is a union", "statement": "`predict` on a row makes the row the union of its old contents and the symbol's closure row, for every row that is closed under prediction, even though it does nothing when the symbol's bit is already set.", "quantifier": "all rows, all closure tables", "why_tests_cant": "2^n rows.", "anchors": ["gearley-recognizer/src/predict.rs"]}
{"id": "C38", "title": "an already built forest is never disturbed", "statement": "Handles returned by a bocage keep representing the same trees while the recognizer continues, including across later sums, which overwrite graph slots.", "quantifier": "all runs", "why_tests_cant": "All later operations.", "anchors": ["simple-bocage/src/bocage.rs: sum", "compact-bocage/src/graph.rs"]}
{"id": "C39", "title": "exhaustion is final", "statement": "Without hints, once `end_earleme` returns false no continuation of the tokens scanned so far is a sentence.", "quantifier": "all grammars and inputs", "why_tests_cant": "Quantifies over all continuations.", "anchors": ["gearley-recognizer/src/recognizer.rs: end_earleme, is_exhausted"]}
{"id": "C40", "title": "item order", "statement": "Items are totally preordered by (origin, dot) and equality ignores the node, consistently across Eq, PartialOrd and Ord.", "quantifier": "all items", "why_tests_cant": "All values.", "anchors": ["gearley-forest/src/item.rs"]}
{"id": "C41", "title": "loading a grammar from text", "statement": "`load_with_scanner` reads any text without panicking: texts in the grammar notation are accepted by the recognizer, and the first offending character is reported with its line and column.", "quantifier": "all texts, all grammars of the notation", "why_tests_cant": "All texts.", "anchors": ["gearley-load/src/lib.rs: load_with_scanner"]}
{"id": "C42", "title": "the unstable sort cannot be observed", "statement": "Items with equal keys may come out of `sort_unstable_by_key` in any order. As long as the tokens scanned at each position are distinct terminals, no result and no part of the recognizer's or forest's state depends on that order.", "quantifier": "all grammars with one-symbol rules numbered with the left-hand side below the right-hand side (not established by the code, see C34 and the findings in DESIGN.md; needed), all sessions, all admissible sorts", "why_tests_cant": "A test runs with one implementation of the sort.", "anchors": ["gearley-recognizer/src/recognizer.rs: sort_medial_items"]}
{"id": "C43", "title": "cubic time, quadratic memory", "statement": "For k positions of distinct terminals the recognizer performs at most (3·symbols + 6·rules)·k³ forest operations (and as many queue operations), and its chart holds at most rules·(k+1)² items, if one-symbol rules are numbered with the left-hand side below the right-hand side. In any other numbering of a grammar without one-symbol cycles that has u one-symbol rules, operations and queue lengths grow by at most the constant factor 4^u and the chart by at most 2^u, so the cost is still cubic in the input.", "quantifier": "all grammars without one-symbol cycles, in any order of symbols; all inputs, all forests", "why_tests_cant": "An asymptotic bound for all inputs cannot be measured on samples.", "anchors": ["gearley-recognizer/src/recognizer.rs: complete_all_sums_entirely, complete_entire_sum, complete_medial_items, complete_predictions"]}
{"id": "C44", "title": "the parse forest is packed", "statement": "The finished node of both bocages refers to a packed forest: the node for a symbol over a range of the input has exactly one alternative for each rule and each place where the rule can be split, and the factors of an alternative are packed nodes of the symbols of that rule over the parts of the range.", "quantifier": "all accepted inputs of distinct terminals with one tree; for ambiguous inputs all grammars with one-symbol rules numbered with the left-hand side below the right-hand side (not established by the code, see C34 and the findings in DESIGN.md; needed)", "why_tests_cant": "A missing or duplicate alternative may need a particular ambiguity; equal sets of trees do not show how they are grouped.", "anchors": ["gearley-recognizer/src/recognizer.rs: complete_entire_sum", "gearley-forest/src/simple_bocage: sum, begin_sum, SumBuilder", "gearley-forest/src/compact_bocage: sum, begin_sum, SumBuilder"]}
{"id": "C45", "title": "values of ambiguous parses", "statement": "Evaluation of the finished node of any non-empty accepted input, ambiguous or not, returns the values of the packed forest of the user's root: for each rule and each split one application of the rule to all values of its symbols (removed symbols restored). The result is the same when evaluated again, and for a unique tree it is the value of that tree.", "quantifier": "all grammars with one-symbol rules numbered with the left-hand side below the right-hand side (not established by the code, see C34 and the findings in DESIGN.md; needed), all inputs, all evaluators", "why_tests_cant": "The evaluator is arbitrary, and the number of values depends on the ambiguity.", "anchors": ["gearley-forest/src/simple_bocage: evaluate", "gearley-forest/src/compact_bocage: evaluate"]}
{"id": "C46", "title": "from the binarized grammar to the parser", "statement": "Renumbering, sorting and table construction (from_grammar after binarization) turn every wrapped and binarized grammar into tables as assumed by the other properties, without panic; the mapping translates the numbers the user knows; and the resulting parser, fed with the user's symbol numbers, accepts exactly the sentences of the grammar before renumbering.", "quantifier": "all binarized grammars without one-symbol cycles in any symbol order, all implementations of sorting and of FIRST/FOLLOW that meet their contract, all token lists", "why_tests_cant": "The comparison handed to the sort is not a total order, so the result depends on the order of declaration of symbols; tests use a handful of declaration orders.", "anchors": ["gearley-default-grammar/src/lib.rs: from_grammar, remap_symbols, sort_rules_by_lhs, to_internal, to_external"]}
{"id": "C47", "title": "without the order of one-symbol rules, completion is exponential", "statement": "If one-symbol rules are numbered with the left-hand side above the right-hand side, the completion pass completes a group once for every chain of one-symbol rules that leads to it; in any order, a group is completed at most as often as there are chains of one-symbol rules that lead to it. There are acyclic grammars with k(k+1)/2+3 rules whose single one-token sentence takes at least 2^k groups at one position; so the numbering condition of C15 and C43, which remap_symbols does not establish, cannot be dropped.", "quantifier": "all grammars without one-symbol cycles (bounds by number of chains); all k and all forests for the exponential family", "why_tests_cant": "The family is infinite, and small members only look slow.", "anchors": ["gearley-recognizer/src/recognizer.rs: complete_all_sums_entirely, next_sum, next_summand, complete_sum_entirely", "gearley-forest/src/item.rs: Ord", "gearley-default-grammar/src/lib.rs: remap_symbols"]}
{"id": "C48", "title": "quadratic time for unambiguous grammars", "statement": "If the grammar is unambiguous and all symbols are productive, reading k terminals takes at most (3·symbols + 6·rules)·k² forest operations. The same bound holds for any grammar on input where no symbol, predicted at a position, has two derivation trees over the same part of the input.", "quantifier": "all grammars without cycles, all inputs, all forests", "why_tests_cant": "An asymptotic bound for all inputs and a whole class of grammars cannot be measured on samples.", "anchors": ["gearley-recognizer/src/recognizer.rs: complete_all_sums_entirely, complete_entire_sum, complete_medial_items, complete_predictions"]}
{"id": "C49", "title": "lower bound; right recursion is quadratic", "statement": "Without hints, reading a position takes at least two forest operations for each pair of a symbol and a starting position that ends there in a derivation of some continuation. As complete_leo is not implemented, a list of k elements takes at least k(k+1) operations with the grammar S ::= a S | a.", "quantifier": "all grammars, inputs and forests; for right recursion all k", "why_tests_cant": "A lower bound for every forest and all lengths is a statement about infinitely many runs.", "anchors": ["gearley-recognizer/src/recognizer.rs: complete_all_sums_entirely, complete_entire_sum, complete_leo"]}
{"id": "C50", "title": "linear time for left-linear grammars", "statement": "If at most K pairs of a symbol and a starting position end at each position, every position costs a constant number of forest operations that depends on the grammar and K only. Left-linear grammars, such as left-recursive lists, are read in linear time.", "quantifier": "all grammars without one-symbol cycles, in any order of symbols (with the factor 4^u of C43, without it if the order is that of C15), all inputs, all forests", "why_tests_cant": "An asymptotic bound for all inputs and a whole class of grammars cannot be measured on samples.", "anchors": ["gearley-recognizer/src/recognizer.rs: complete_all_sums_entirely, complete_entire_sum, complete_medial_items, complete_predictions"]}
{"id": "C51", "title": "32-bit positions are exact", "statement": "The conversion of positions to 32 bits in scan makes no difference for call sequences with fewer than 2^32 calls of begin_earleme and for parse with up to 2^32 - 2 tokens; with left-linear grammars it makes no difference for inputs of any length. The bound is sharp: with S ::= a S | a, scan panics at token 2^32 - 1 though the list is in the language. Likewise the width of usize, from 32 to 64 bits, makes no difference below 2^32 calls, except that the result of earleme before the first position is cut to that width.", "quantifier": "all grammars, forests and call sequences; all inputs below the bound", "why_tests_cant": "The first input that shows a difference has four billion tokens.", "anchors": ["gearley-recognizer/src/recognizer.rs:144-158", "gearley-forest/src/item.rs:4", "gearley-recognizer/src/recognizer.rs:379-381", "gearley-wasm/src/lib.rs:22-29"]}
{"id": "C52", "title": "sets that are kept", "statement": "Without hints, a set is kept for every position that a derivation of any continuation may return to. If all Earley items start at one of the first K + 1 positions, at most K + 3 sets are kept, however long the input is; at most four with left-linear grammars. With S ::= a S | a all sets are kept.", "quantifier": "all grammars, inputs, forests", "why_tests_cant": "The memory bound holds for inputs of every length, the lower bound for all continuations.", "anchors": ["gearley-recognizer/src/recognizer.rs: remove_unreachable_sets, advance_after_completion"]}
{"id": "C53", "title": "look-ahead makes right recursion linear", "statement": "With the hints that parse passes, the number of forest operations is bounded by the number of symbols and spans that survive the look-ahead filter. If only the end of the input may follow a symbol that derives strings longer than K, parse makes linearly many operations; right-linear grammars with exact FOLLOW sets are such grammars. S ::= a S | a takes at most 1942 (k + 1) operations on k tokens with look-ahead, against more than k (k + 1) without.", "quantifier": "all grammars without one-symbol cycles, in any order of symbols (with the factor of C43), inputs, forests", "why_tests_cant": "A bound on work for inputs of every length and every grammar of the class.", "anchors": ["gearley-recognizer/src/lookahead.rs", "gearley-recognizer/src/recognizer.rs: complete_binary_predictions"]}
{"id": "C54", "title": "size of the forest", "statement": "Each forest operation adds at most one node to the simple bocage and nine bytes to the compact bocage, so the graph has cubic size in the length of the input, quadratic size for unambiguous grammars, linear size for left-linear grammars and (with look-ahead) for right-linear grammars. Hence there is a bound on the input length alone below which no 32-bit handle overflows and the finished node stands for exactly the parse trees. Counting operations does not change any run.", "quantifier": "all grammars without one-symbol cycles, in any order of symbols (with the factor of C43), inputs, forests", "why_tests_cant": "Bounds for inputs of every length; 32-bit overflow needs graphs with billions of nodes.", "anchors": ["simple-bocage/src/bocage.rs:115-172", "compact-bocage/src/bocage.rs:139-200", "compact-bocage/src/graph.rs:24-61"]}
{"id": "C55", "title": "the user's grammar", "statement": "If the crate cfg binarizes and eliminates empty rules as specified, then the derivation trees of the binarized grammar correspond one to one to the derivation trees of the user's grammar (rules of any length, possibly empty), parse returns Ok(true) exactly on the token strings derived from the user's root (including the empty string), and if a string has exactly one tree in the user's grammar, evaluation of the finished node yields the value of that tree: every rule is called with its number and one value for each symbol of its right-hand side, in order, where symbols deriving the empty string contribute the value given by nulling. Every grammar without cycles has such a binarization.", "quantifier": "all user grammars, token strings, evaluators; both bocages", "why_tests_cant": "Tests run a few grammars; the correspondence between the user's trees and the internal trees has to hold for rules of every length and every pattern of nullable symbols.", "anchors": ["gearley-default-grammar/src/lib.rs:94-230", "gearley-default-grammar/src/lib.rs:590-640", "simple-bocage/src/traverse.rs", "compact-bocage/src/traverse.rs", "gearley-utils/src/parse.rs"]}
{"id": "C56", "title": "the calculator computes arithmetic expressions", "statement": "precedenced_math: tokenize panics exactly on characters other than digits, operators and parentheses; the grammar is unambiguous; parse accepts exactly the texts of arithmetic expressions with the usual precedence and left-associativity; evaluation yields the value of the expression in i32 arithmetic and panics exactly if there is none (division by zero, overflow).", "quantifier": "all texts, all expressions, all parsers built from the grammar, both bocages", "why_tests_cant": "The repository's test only checks that one expression is accepted. Values depend on how symbols are renumbered and on the length of numbers; the claim is false for numbers of three or more digits and for the renumbering that a stable sort makes.", "anchors": ["gearley-example-grammars/src/precedenced_math/mod.rs:12-101", "gearley-default-grammar/src/lib.rs:232-281", "gearley-recognizer/src/recognizer.rs", "gearley/tests/tests.rs:4-11"]}
{"id": "C57", "title": "the number of rounds of evaluate", "statement": "The number of iterations of the loop of evaluate is determined by grammar and input: it is a sum over the alternatives of the packed forest, in which shared parts count for every use. It is at most linear in the number of tokens if the input has one tree. It exceeds 3^k for `a plus a ... plus a` with k operators and E ::= E plus E | a, although the forest has O(k^3) nodes.", "quantifier": "all accepted inputs with one tree; for ambiguous inputs all grammars with one-symbol rules numbered with the left-hand side below the right-hand side (not established by the code, see C34; needed); all evaluators that append to the results for empty derivations, both bocages", "why_tests_cant": "A test measures the time of some inputs. The exponential growth appears only with ambiguity and is not visible for short inputs, and the linear bound is about all unambiguous inputs and all rules with removed symbols.", "anchors": ["simple-bocage/src/traverse.rs:24-157", "compact-bocage/src/traverse.rs:24-170"]}
{"id": "C58", "title": "values of ambiguous inputs in terms of the user's grammar", "statement": "For any non-empty string of tokens in the language of the user's grammar, evaluation of the finished node returns one value for each pair of a rule of the root and a start of the last symbol of that rule, in some order. The value is the rule applied to all values of the symbols before the last, followed by all values of the last symbol, where the values of several symbols are again collected for each start of the last of them. Evaluating again returns the same values. Hence the number of values is not the number of trees, and a rule may be applied to more values than it has symbols: for E ::= E E | a and n tokens there are n - 1 values, and with four tokens the rule is applied to three values. If each rule and start of its last symbol leaves one tree, the values are those of all trees, each once.", "quantifier": "all user grammars (any length of rules, empty rules) whose parser numbers the symbols of one-symbol rules upwards, all accepted inputs, all evaluators that append one value for an empty symbol, both bocages", "why_tests_cant": "The result depends on binarization, elimination of empty rules, renumbering, the packing of alternatives in the forest and the order of evaluation; a test compares the values of a few small ambiguous inputs, in which often each alternative has one tree.", "anchors": ["simple-bocage/src/traverse.rs:24-157", "compact-bocage/src/traverse.rs:24-170", "gearley-default-grammar/src/lib.rs:94-230", "gearley-default-grammar/src/lib.rs:590-640", "simple-bocage/src/traverse.rs", "compact-bocage/src/traverse.rs", "gearley-utils/src/parse.rs"]}
{"id": "C59", "title": "the ambiguous calculator", "statement": "The example ambiguous_math (expr ::= expr op expr | num) accepts exactly the arithmetic expressions of digits and the four operators without parentheses, its tokenizer panics exactly on other characters, and evaluation returns the values of all ways to group the text, each once. It does so for at most two operations and numbers of at most two digits, if the tokens kept their numbers in the parser; in general it returns as many values as there are operations, and takes the second value of a left operand with two operations or more for the operation.", "quantifier": "all texts, all parsers made from the grammar by any conforming crate cfg whose numbers go up in one-symbol rules, both bocages", "why_tests_cant": "A test evaluates a few short texts with the one order of symbols that the sort happens to produce. The number of ways to group grows exponentially with the text, and the error needs three operations.", "anchors": ["gearley-example-grammars/src/ambiguous_math/mod.rs:12-88", "simple-bocage/src/traverse.rs:24-157", "compact-bocage/src/traverse.rs:24-170", "gearley-default-grammar/src/lib.rs:232-281"]}
{"id": "C60", "title": "logging changes nothing", "statement": "With feature `log` at level trace, the recognizer, the convenience parsers and from_grammar return the same results, make the same panics and diverge in the same cases as without. For single calls this holds if begin_earleme is called only after the position before was ended with success or thrown away by reset; without this condition it is false: a client that ignores that end_earleme returned false is served forever without logging, but begin_earleme panics at the ninth position with logging, because the log reads a row of the prediction matrix that does not exist.", "quantifier": "all grammars, forests, sessions, token lists, call sequences that keep the protocol; all results of crate cfg for from_grammar", "why_tests_cant": "Tests run either with or without the feature, on a few inputs. The computations for the log read tables at indices that depend on the history of the recognizer.", "anchors": ["gearley-recognizer/src/recognizer.rs:118-130", "gearley-recognizer/src/recognizer.rs:167-187", "gearley-recognizer/src/recognizer.rs:487-536", "gearley-default-grammar/src/lib.rs:128-228", "gearley-utils/src/parse.rs:67-185"]}
{"id": "C61", "title": "the C grammar of the web page", "statement": "Every word that the C lexer table makes names exactly one symbol of the C grammar, a terminal; a parser for the grammar exists and accepts exactly its programs. In every program parentheses, braces and square brackets are nested properly, the last token is a semicolon or a closing brace, and array designators of initializers may be used. The claims about square brackets and designators are false: the rule for designators has a closing bracket in place of the opening one, so no program has an array designator, `int x = { ] 1 ] = 1 } ;` is a program, and all that holds is that the number of closing brackets minus that of opening ones is even and not negative. Each declaration `int x;` doubles the number of trees.", "quantifier": "all strings of tokens, all programs of the grammar, all parsers made from it by any conforming crate cfg", "why_tests_cant": "The grammar has 239 rules and infinitely many programs. The example program of the page has no designator.", "anchors": ["gearley-example-grammars/src/c/grammar.panini:1-366", "gearley-wasm/src/lib.rs:105-217"]}
{"id": "C62", "title": "the parse function of the web page", "statement": "For every history of calls, in mode `basic` the page shows the log of this call exactly if the words of the input are a sentence of the grammar, in mode `advanced` exactly if the characters can be read as terminals that form a sentence, in mode `c-lexer` with the C grammar exactly if the tokens of the lexer are a C program; otherwise it shows a text that starts with `Failed`, naming the first unknown word if there is one. The message `failed to finish the parse` is never shown. A call with a known mode leaves nothing in the log for later calls; only calls with an unknown mode leave the line `begin`. The claim about mode `basic` is false for inputs whose list of words is empty, and for inputs with a space at the end or two spaces in a row: they contain an empty word, which is unknown.", "quantifier": "all histories of calls, all inputs, all grammars in reach of C55, all texts that the libraries write to the log", "why_tests_cant": "The page keeps state (logger installed or not, log buffer) between calls; histories, inputs and grammars are infinite in number. There are no tests of gearley-wasm.", "anchors": ["gearley-wasm/src/lib.rs:45-88", "gearley-wasm/src/lib.rs:220-308", "gearley-utils/src/parse.rs:109-180"]}
{"id": "C63", "title": "parse with cyclic grammars", "statement": "For a grammar with symbols that derive themselves, `parse` on a string of tokens never panics, and if it returns, it returns `Ok(true)` exactly if the string can be derived from the root. It returns if no symbol that derives itself derives a non-empty part of the string. It does not return if the string has infinitely many derivation trees, nor if a symbol that derives itself derives a part of the string and some sentential form begins with the tokens before the part, this symbol, and the token after the part. Without lookahead, `parse` diverges exactly if a predicted symbol on a cycle of one-symbol rules is completed somewhere in the string.", "quantifier": "all grammars of the user (with rules of any length, empty rules, any cycles), all strings of tokens, all forests that do not panic", "why_tests_cant": "Divergence cannot be observed by a test; the grammars and strings are infinite in number. The tests have no cyclic grammar.", "anchors": ["gearley-recognizer/src/recognizer.rs:167-200", "gearley-recognizer/src/recognizer.rs:647-690", "gearley-utils/src/parse.rs:67-106", "gearley-default-grammar/src/lib.rs:94-230"]}
{"id": "C64", "title": "Forests and values of the user's grammar, with or without cycles", "statement": "Whenever `parse` returns `Ok(true)` on a non-empty string of tokens, for any grammar of the user, cyclic or not, the finished node of either bocage represents a list of trees that read as the derivation trees of the string in the user's grammar, each of them exactly once. If the string has exactly one derivation tree and `parse` returns, it returns `Ok(true)` and evaluation computes the value of that tree. On the empty string `parse` always returns, with `Ok(true)` exactly if the root is nullable; then evaluation of the simple bocage gives what `nulling` gives for the root, and evaluation of the compact bocage gives no value.", "quantifier": "all grammars of the user (rules of any length, empty rules, any cycles), all strings of tokens on which parse returns, both bocages, all evaluators whose nulling appends one value", "why_tests_cant": "All grammars, strings and evaluators; the tests have no cyclic grammar and do not enumerate the trees of a forest.", "anchors": ["gearley-recognizer/src/recognizer.rs:167-200", "gearley-utils/src/parse.rs:67-106", "simple-bocage/src/bocage.rs", "compact-bocage/src/bocage.rs", "simple-bocage/src/traverse.rs: evaluate", "compact-bocage/src/traverse.rs: evaluate"]}
{"id": "C65", "title": "LR(1) grammars in linear time and memory", "statement": "For LR(1) grammars (Knuth's definition, for the grammar with start and end markers) `parse` with look-ahead takes O(n log n) time and linear memory in the number of tokens, as the README promises: the number of forest and queue operations, the number of items in the chart and the size of the bocage are at most a constant (depending on the grammar only) times the number of tokens, for accepted and rejected inputs. Such grammars have no cycles and at most one derivation tree for each string, and for each of them there is a parser that meets all assumptions. In particular this holds for the arithmetic grammar of precedenced_math.", "quantifier": "all LR(1) grammars without repeated rules whose symbols are productive and in reach (symbols that only derive the empty string having been removed from binarized rules), all strings of tokens, both bocages", "why_tests_cant": "An asymptotic bound over all inputs and an undecidable class of grammars cannot be measured on samples; the tests only time a few inputs.", "anchors": ["README.md:51-53", "gearley-recognizer/src/recognizer.rs: end_earleme, complete_all_sums_entirely, complete_entire_sum, complete_medial_items, complete_predictions", "gearley-recognizer/src/lookahead.rs", "gearley-example-grammars/src/precedenced_math.rs"]}
{"id": "C66", "title": "The exact chart with look-ahead, for right and wrong hints", "statement": "With look-ahead hints of any kind, right or wrong, and for any grammar, cyclic or not, the recognizer computes exactly what Earley's algorithm does when a rule is entered past its first symbol only if the hinted token is in FIRST of the next symbol, and completed only if it is in FOLLOW of its left-hand side, parts of binarized rules excepted. A session diverges exactly if at some position an expected symbol that is found derives itself by one-symbol rules that the hint lets end. A session that returns got through exactly if some rule is entered or completed at its last position. Then the kept Earley sets hold exactly the items of that algorithm at their positions, and the prediction rows exactly its expected symbols. Wrong hints only leave things out: if the session without hints returns, so does the hinted one, and it does not get further. Each completed symbol and starting position costs at least two operations. With the hints that parse gives itself: parse diverges exactly in that case, and otherwise reports exactly the token after which nothing is entered or completed.", "quantifier": "all grammars with rules of one or two symbols (any cycles), all sequences of input positions with any tokens and any hints, all forests", "why_tests_cant": "The tests give no wrong hints and compare no charts; exactness and divergence need all inputs.", "anchors": ["gearley-recognizer/src/lookahead.rs", "gearley-recognizer/src/recognizer.rs: begin_earleme, end_earleme, complete_entire_sum, complete_medial_items, complete_predictions"]}
{"id": "C67", "title": "The cubic bounds are attained", "statement": "The graph of the forest has at least one entry for each rule, range and split of the range that are part of some parse tree of the input, and the recognizer makes at least as many operations, less the nodes of a new forest; handles overflow at 2^32 entries, so larger numbers are only bounded from below by 2^32. For E ::= E plus E | a and an input with k operators this makes at least k(k+1)(k+2)/6 entries, so the cubic upper bounds on time (C43) and size (C54) cannot be improved beyond a constant factor.", "quantifier": "all accepted inputs of distinct terminals whose tokens differ by position, all grammars with one-symbol rules numbered with the left-hand side below the right-hand side, both bocages; all numbers k of operators", "why_tests_cant": "A lower bound for every input length is a statement about infinitely many runs; the benchmarks time a few inputs.", "anchors": ["gearley-recognizer/src/recognizer.rs: complete_entire_sum, complete_medial_items", "simple-bocage/src/bocage.rs:115-172", "compact-bocage/src/bocage.rs:139-200"]}
