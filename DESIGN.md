# Formal model of gearley: design

Subject: `pczarn/gearley` at the pinned commit, read as text from `/repo`. Language: Lean 4.33.0 (+ single Mathlib modules).
`MANIFEST.json` records the state of each claim, `AXIOMS.txt` the axioms of every theorem named there, `seeded/LOG.jsonl` the
experiments with wrong programs.

## 1. Layers

1. **Effects** (`Model/Effects`). `M α = ExceptT Panic Option α`. `none` is divergence, `some (error p)` a Rust panic,
   `some (ok a)` a return. `while` loops without a syntactic bound are least fixed points (`loop`, by `partial_fixpoint`); a
   fuelled version is used only to compute concrete runs, and is proved to agree when it returns.
2. **Data structures**: `Vec2d`, `Heap` (list-as-array with sift up/down), `BitMatrix` (rows of Booleans), `BinarySearch`,
   `Sort`, `CartesianProduct`, `CompactGraph` (exact bytes).
3. **Grammar tables** (`Model/Grammar`, `Model/Remap`): the processed context-free grammar (rules with one or two right-hand
   symbols), the functions of `DefaultGrammar` that compute tables from it, the accessors of `impl Grammar`, the order relation
   of `remap_symbols`. `Model/FromGrammar`: the second half of `from_grammar`, generic in what crate `cfg` does there.
4. **Recognizer** (`Model/Recognizer`, `Model/Session`, `Model/Api`, `Model/Manual`): every method of `Recognizer` and
   `CompleteGroup`, generic in the forest (a record of operations that may panic), in the policy constants, and in the
   permutation chosen by `sort_unstable_by_key`. `Session` is the protocol of the parsers, `Api` arbitrary call sequences with
   observations, `Manual` the completion loop written by a client. `Machine`: the same clients with `scan` on `u32` positions.
   `Width`: the recognizer and the drivers with a `usize` of any width.
   `Logging`: the same with the computations of feature `log`.
5. **Forests** (`Model/SimpleBocage`, `Model/CompactBocage`, `Model/Evaluator`): `NullForest`, both bocages, both `evaluate`
   work-stack machines.
6. **Drivers** (`Model/Drivers`, `Model/Load`): `parse`, `parse_terminal_list`, `parse_tokenizing`, `load_with_scanner`.
   `Model/PerfHint`: capacity hints. `Model/Calculator`: the calculators of gearley-example-grammars. `Model/CGrammar`: the C grammar and the table of the C lexer. `Model/Wasm`: the function `parse` of the web page with its state.
7. **Specification** (`Spec/*`, no helper of the model): derivations of a binarized grammar, derivation trees, Earley items,
   viable prefixes, lists of sets, trees of a bocage graph, values of trees, conditions on processed grammars, what it means for
   a forest not to panic.
8. **Proofs** (`Proofs/*`) and **property theorems** (`Props/*`), the latter with examples that their hypotheses can be met
   (`Examples/*` holds the concrete grammars). `Examples/Conformance` runs the tests of the repository on the model and compares
   with the expectations written there (evidence that the model is the code, not a proof).

The main proof is a refinement: chart of the model = Earley facts defined by derivations, with a ghost list mapping surviving set
numbers to input positions (because the code drops sets). Trees are tracked by running the recognizer with a specification
forest whose handles *are* lists of trees (`Spec/TreeForest`); a relational theorem (`Proofs/Sim`, `RelM`) transfers every result
to any other forest.

## 2. Trusted base

* Lean's kernel, and the standard axioms `propext`, `Classical.choice`, `Quot.sound` (no others, see `AXIOMS.txt`).
* That the definitions under `Verif/Model` say what the Rust code says. Each carries a file/line citation.
* That the definitions under `Verif/Spec` say what the words of the properties mean.
* Not in the repository, hence assumed: crate `cfg` (`make_proper`, `wrap_input`, `binarize_and_eliminate_nulling_rules`,
  `FirstSets`, `FollowSets`, `Remap`, `column`). Its results enter as explicit hypotheses: `ProcessedOK` (shape of the processed
  grammar), `FirstSetsOK`/`FollowSetsOK` (the sets contain at least FIRST and FOLLOW), `WrappedRules` where trees are counted.
  `Prepared` = these plus "the tables were computed by `from_processed_grammars`"; `Built` = `Prepared` plus no cycle of
  one-symbol rules. Concrete grammars in `Examples/*` are proved to be `Built`. C46 starts one step earlier: `BinarizedOK` (shape
  of the result of `binarize_and_eliminate_nulling_rules`) and `CrateOK` (contract of the functions of `cfg` that are called
  afterwards) imply `Built`. `CrateOK.reorder` demands that sorting by the comparison of `remap_symbols` returns, and leaves no
  two neighbours in the wrong order. This comparison is antisymmetric but its `Equal` is not transitive, and `sort_by` of recent
  versions of std may panic in this case; merge and insertion sorts meet the contract (`plainCrate_ok`). C55 starts with the
  grammar of the user: `Binarizes` (`Spec/User`) is the contract of `binarize_and_eliminate_nulling_rules` (for every rule a chain
  of rules with at most two symbols, every version of a rule with nullable symbols left out, eliminated symbols recorded in the
  history), `EmptyCfg` that of the second grammar it returns. `userParser_exists` and, for cyclic grammars,
  `parserOf_exists` show that the contract can be met.
* Crate `bit-matrix`: modelled as a list of rows; its `transitive_closure` is modelled as Warshall's algorithm and proved.
  Addressing a bit outside the width is a panic in the model (the crate tolerates padding bits of the last block).
* `std`: `sort_unstable_by_key` by its contract (any key-sorted permutation, depending only on the keys), `sort_by_key` as a
  stable insertion sort, `binary_search_by` by the algorithm of std.
* Build: debug assertions are on (`debug_assert*` panic); `usize` arithmetic that can overflow in reach panics
  (`succM`, `PerfHint`). Everything else is `Nat`. Origins (`u32`) are exact numbers in `Model/Recognizer`;
  `Model/Machine` has the conversion of the code, and C51 proves that it makes no difference below 2^32 positions. Dots (`u32`,
  numbers of rules) are treated as exact. `usize::wrapping_sub` in
  `earleme` has the 64-bit wrap-around; `Model/Width` has that of any width, and C51 proves that 32 to 64 bits give the same below
  2^32 calls (tables of the grammar and the forests have no width). Arithmetic on node handles (`NodeHandle(u32)`) is that of a release build, modulo 2^32 (a
  debug build panics instead once there are 2^32 nodes); theorems about handles assume graphs shorter than 2^32.
* In `compact-bocage` the byte graph has its exact byte layout; the alignment check in `bytemuck::from_bytes` on a four-byte
  stack array (graph.rs:74-77) is not modelled (it could only turn a read into a panic).

### What is modelled, file by file

| file | modelled | not modelled |
|------|----------|--------------|
| gearley-vec2d/src/lib.rs | all | capacities |
| gearley-forest/src/* | items, order, `NullForest`, `Forest`, `Evaluate`, `NodeHandle` | — |
| gearley-grammar/src/lib.rs | `ForestInfo`, accessors | the blanket `impl Grammar for &G` (forwards) |
| gearley-default-grammar/src/lib.rs | `from_grammar` from line 110 on (`Model/FromGrammar`), `find_gensyms`, `remap_symbols`, `from_processed_grammars` with all it calls, `impl Grammar` | steps performed by crate `cfg`, the text of traces (what is evaluated for them is in `Model/Logging`), the unused `scan_prediction_matrix` |
| gearley-recognizer/src/recognizer.rs, event.rs, lookahead.rs, predict.rs, binary_heap.rs, perf_hint.rs | all; feature `log`: what is evaluated (`Model/Logging`) | the text of the log, Leo (`todo!()` in the code: a panic), allocation |
| gearley-recognizer/src/tokenizing_recognizer.rs, partial_borrow.rs, debug.rs | — | commented-out code, `fmt::Debug` |
| simple-bocage, compact-bocage | bocage, graph, node, traverse | `Order`/`NullOrder` (does nothing), `println!` |
| gearley-utils/src/parse.rs, cartesian_product.rs | all | messages; pointer aliasing beyond index arithmetic |
| gearley-utils/src/simple_compact_evaluator.rs | — | struct only, its method is commented out |
| gearley-load/src/lib.rs | character loop of `load_with_scanner` | does not compile (`rule!` undefined, line 482 `(19, )`); its evaluator and the calls to crates `cfg_load`, `cfg_sequence` |
| gearley-example-grammars | grammars, tokenizers and evaluators of `precedenced_math` and `ambiguous_math` (`Model/Calculator`); the `c` grammar, as data (`Model/CGrammar`) | printing; example texts |
| gearley-wasm/src/lib.rs | `parse` with the logger and its buffer (`Model/Wasm`), the table of `c_lexer` (`Model/CGrammar`) | the allocator (200 MB arena), 32-bit `usize` of wasm32 (the model has 64 bits; C51 for the difference), crates `cfg-load` and `c-lexer-logos` (fields of `Host`), the text of log messages of libraries (any list of messages), `getGrammars`, `getExamples` |

## 3. Properties

Status: P proved in full; p partial (the theorem is named `_partial` or the note in `MANIFEST.json` says what is missing); where
the code violates the property the negation is proved by a witness, named in section 4.

| id | status | file (`Props/`) | what is modelled / how it is proved |
|----|--------|------|-------|
| C01 | P | Recognition | parse driver + recognizer + tables; chart refinement: soundness and completeness invariants |
| C02 | P | Recognition | invariant gives no panic; a numeric measure on the completion queue gives termination |
| C03 | P | Cycles | exact condition for divergence; all fuelled approximations run out |
| C04 | P | Recognition, UserPosition, AheadParse, CyclicPosition | soundness/completeness relative to hint-honouring continuations; `Proofs/UserPrefix` carries viable prefixes to the user's grammar and completes sentential forms to tokens, which needs `Trimmed` (see C65): rules with symbols that derive no non-empty string were removed by `make_proper` of crate `cfg` |
| C05, C39 | P | Recognition, UserPredict | chart refinement without hints + crossing lemma |
| C06 | P | Recognition | as C01 with several tokens per position |
| C07 | P | Recognition | completeness relative to continuations consistent with hints |
| C08 | P | Independence | relational theorem between two forests, arbitrary call sequences |
| C09 | P | Chart, UserPredict | prediction part of the chart refinement |
| C10 | P | Independence | direct |
| C11 | p | Reset | acceptance after `reset` is right if no hint is pending; the rest is false |
| C12 | P | Chart | ghost position list |
| C13, C14 | P | Forest | tree-tracking invariants, counting for "exactly once" |
| C15 | P | Chart | ordering invariant on the queue |
| C16 | P | Containers | permutation + heap order + maximality |
| C17 | P | Containers | abstraction to a list of sets, lifted to operation sequences |
| C18 | P | Containers/Forest | byte-level round trip |
| C19 | P | Forest | each bocage related to the specification forest |
| C20 | p | Evaluate | work-stack machine = value of the tree, for unambiguous parses; false for ambiguous ones |
| C21 | P | Evaluate | graph level and values |
| C22, C23, C25 | P | Tables | induction on rule lists, Warshall correctness |
| C24 | p | Tables | exact description; uniqueness of the continuation is false in general |
| C26 | P | Chart | sortedness + minimal end marker |
| C27 | p | Observers | exact description; false when something other than the root is nullable |
| C28 | p | Observers | `trace` right, `events` shifted by one column |
| C29 | p | Observers, UserPredict | sound; not complete |
| C30 | p | Manual | equality as programs where `begin_sum` is not needed; otherwise false |
| C31 | P | CartesianProduct | mixed radix counter |
| C32 | p | Drivers, UserDrivers, UserPosition | `parse_tokenizing` in full, also with positions in terms of the user's grammar; `parse_terminal_list` loses the position |
| C33 | P | PerfHint | integer arithmetic |
| C34 | P | Remap | direct |
| C35 | P | Containers | equals filter on sorted lists |
| C36 | P | Forest | direct |
| C37 | P | Containers | direct |
| C38 | P | Forest | monotonicity of the denotation |
| C40 | P | Containers | direct |
| C41 | p | Load | exact description; every text in the notation panics |
| C42 | P | Determinism, NeedsOrder | keys of a set are distinct (C15), so a sorted permutation is unique; session by induction |
| C43 | P | Cost, CostAny | a forest wrapper counts calls; operations + queue length grows by the cost of a group; groups are distinct (C15). Without the order of one-symbol rules: a group is completed at most once per chain (C47_chains), a chain bound of 2^u for u one-symbol rules (`Proofs/Many`) |
| C44 | P | Packed, NeedsOrder, OneTree | a forest of separate summands (`Proofs/Separate`, `SepForest`) simulated by both bocages; each group is summed once (C15), each summand is one rule and split |
| C45 | P | Packed, NeedsOrder | induction over the packed forest with the rules for evaluation of C20; hypothesis: the wrapping rule occurs once |
| C46 | P | FromGrammar | `remap_symbols` + `sort_rules_by_lhs` give a `ProcessedOK` grammar; derivations are invariant under injective renumbering; then C01 |
| C47 | P | Order, CostAny | potential on the queue; a parametric family of grammars. Upper bound: a weight per symbol that bounds the weights of the one-symbol rules below it, kept through the completion pass (`Proofs/Climb`) |
| C48 | P | Quadratic | C43's accounting; each waiting item is used by one group per position if trees are unique; a predicted symbol is embedded in a whole sentence; sums of one group are joined once as trees are unique (`Proofs/Single`), so no order of one-symbol rules is needed |
| C49 | P | Lower | operations only grow; by completeness (C01) each useful symbol and start is a group; a group costs two operations |
| C50 | P | Linear, CostAny | C43's accounting; in left-linear grammars rules are predicted at positions 0 and 1 only |
| C51 | P | Machine | number of sets grows by one per `begin_earleme`; below 2^32 sets the conversion is the identity; C52 for the sharp example; before the first position the chart is as new, otherwise `earleme` does not wrap around |
| C52 | P | Retained | completeness (C01) puts the start of every needed item among the kept positions; upper bound from the exact number of sets dropped |
| C53 | P | Lookahead, CostAny | an inductive relation of what the filter lets through (`Spec/Seen`), kept as an invariant; C43's accounting over that relation |
| C54 | P | Size, CostAny | a simulation between the counted and the plain run with the size as invariant; then C43, C48, C50, C53 |
| C55 | P | Props/User | trees of the user's grammar = trees of the binarized grammar: a bijection by recursion over the suffix chain of a rule, unique decomposition; renaming by `remap_symbols`; then C01, C20, C46. `userParser_exists` constructs a binarization for every acyclic grammar |
| C56 | p | Props/Calculator | uniqueness of the grouping of a text (nesting depth of operators outside parentheses), then C55 with the tree of the expression; false for long numbers and for every renumbering; pigeonhole for the latter |
| C57 | P | EvalCost, NeedsOrder | the exact number of rounds as a relation on graph nodes (`Rd`), run_all by induction on it; transported to the packed forest by C44; for one tree the forest is packed in any order of symbols (UniquePacks, OneTree); the symbols of a unary chain of the only tree differ, so it has `O(n)` nodes for `n` leaves; 3^k by induction over the splits |
| C58 | P | UserPacked, NeedsOrder | induction on `PackedVals` (C45): every alternative of a binarized rule is a rule of the user or a prefix of one (`Conv`), with the start of the last symbol as split; transport back along the renumbering (`UVals.reflect`) |
| C59 | p | AmbiguousMath | trees of the ambiguous grammar are the groupings of the text (regrouping at any operation), then C58; values counted by operations; false from three operations on (a value is taken for the operation) and for every renumbering (pigeonhole) |
| C60 | P | Logging | function by function: what a trace reads was read before; number of rows ≥ number of sets for `sub_matrix`; sharpness by counting rows |
| C61 | p | CGrammar | values of strings in a finite table, each rule checked against it by the kernel (`Proofs/Abstract`); a stack machine for nesting; weights for square brackets; trees checked by a function |
| C62 | p | Wasm | the drivers for the user's grammar (C32 `_user`) inside the page; invariant of histories of calls |
| C63 | P | CyclicParse, UserCycle, AheadParse | C03 under `parse`; cycles of the binarized grammar go through symbols of the user that derive themselves (`Proofs/UserCycle`); trees over inputs in which a symbol stands for itself |
| C64 | P | UserForest | the parse theorems (`GoodParse`) need the grammar only to be prepared and the recognizer to get through the input; then `parse` returning gives the rest, and the bijection of C55 the trees of the user |
| C65 | P | LR, LRCalculator, LREvery | viable prefixes: what is found with exact FOLLOW sets ending at a position lies on the stack of the LR(1) parser (`Proofs/LRChart`), so what is found in total is bounded by pushes and pops (`Proofs/LRCount`); the binarized grammar is related to the user's (`Proofs/LRUser`). Two trees over the same span in the same right-sentential form are equal (`Proofs/LRSingle`), so nothing is reported twice whatever the order of one-symbol rules. LR(1) is checked by SLR(1) or LR(1) tables (`Proofs/SLR`, `Proofs/LRTable`). Assumptions: no rule given twice; every symbol in a rule yields a string; FOLLOW sets are exact, as by the textbook rules if no rule is out of reach; `Trimmed`: `cfg` removed binarized rules with symbols that only derive the empty string (void if there are none). `C65_every_grammar` shows that for every such grammar there is a parser that meets the assumptions (`Proofs/LREvery`) |
| C66 | P | Ahead, AheadParse | simulation against the tree forest: `AheadAt` says that the chart is exactly what `Spec.Guided` (Spec/Ahead) finds with the hints, item by item and tree by tree; the fixed point of the completion pass keeps it (`Proofs/Ahead`), and the pass ends exactly if no rule that fires is on a cycle (`Proofs/AheadRun`). The lower bound counts completion groups |
| C67 | P | ForestLower | the leaves of a packed handle (C44) tell its range, so an entry of the graph belongs to one alternative (`Proofs/ForestLower`); the work follows from C54 (operations bound the size). `E ::= E plus E \| a` has `k (k + 1) (k + 2) / 6` alternatives |

## 4. Findings: where the code violates a property

1. **`reset` leaves state behind** (recognizer.rs:319-330). Rows of `predicted` above 0 are not cleared (`C11_stale_predictions`: a
   later `end_earleme` returns true where a new recognizer returns false), and the hint is not cleared (`C11_stale_hint`).
2. **`events` reads the wrong columns** (default-grammar lib.rs:689-691, columns 1 and 2 instead of 0 and 1):
   `C28_events_shifted`, `C28_events_wrong`, `C28_events_panic`.
3. **Evaluation of ambiguous sums** (traverse.rs of both bocages): the summands' values all become arguments of the enclosing
   rule instead of one value per tree: `C20_ambiguous_simple`, `C20_ambiguous_compact`. On empty input the two bocages differ:
   `C20_empty_simple`, `C20_empty_compact`.
4. **Completion by hand** (recognizer.rs:656-735): `begin_sum` cannot be called, so the compact bocage panics
   (`C30_compact_panics`); the hint is not cleared (`C30_stale_hint`). A skipped group is simply dropped (`C30_skip`).
5. **`has_trivial_derivation`** (lib.rs:592-611) is true if *any* symbol is nullable: `C27_not_the_root`.
6. **`expected_terminals`** (event.rs:37-41) reports only symbols after medial dots and also non-terminals: `C29_missing`.
7. **`find_gensyms`** (lib.rs:287-306) does not count rules `A ::= A b`: `C24_two_continuations`.
8. **`parse_terminal_list`** (parse.rs:128-136) reports a failed parse as `Finish` without position: `C32_position_lost`.
9. **Cycles of one-symbol rules** make `end_earleme` run forever: `C03_diverges_iff`, `C03_end_earleme_never_returns`.
   For grammars of the user: `C63_user_infinite`, `C63_user_diverges`. A string with a single derivation tree can be enough (`loop_one_tree`
   and the example after it in `Props/UserCycle`), since the symbol may be completed for another continuation.
10. **`CartesianProduct::extend`** (cartesian_product.rs:62-72) adds old pointers again (`C31_extend_later`); an empty factor is
    read out of bounds (`C31_empty_factor`).
11. **Capacity hints** overflow for huge limits or token counts: `C33_memory_overflow`, `C33_token_overflow`.
12. **`remap_symbols`** (lib.rs:236-278) orders one-symbol rules by old number (`C34_unary_by_number`), which is not the order the
    recognizer needs; the comparison is not a total order (`C34_not_total`), and can order two symbols both ways
    (`C34_both_ways`); the numbering condition under which it does not is exact (`C34_both_ways_iff`). Hence the hypothesis
    "one-symbol rules are ranked" of C15 is an assumption, not established by the code. See 17 for what happens without it.
13. **`pop_item`** on an empty current set damages a `Vec2d` (`C17_pop_empty_breaks`).
14. With hints, `end_earleme` may return true although the current set is empty (the hint rejected everything); this is why C05 is
    about sessions without hints and C04 says "k-1 or k".
15. If a generated symbol is the right-hand side of two one-symbol rules, `gen_completions` keeps only one of them
    (`ProcessedOK.genUnary` excludes it).

16. **`load_with_scanner`** (gearley-load/src/lib.rs:517-548) calls `scan` without `begin_earleme`: it panics on the first character
    of any grammar (`C41_panics`). Spaces do not advance the column (`C41_wrong_column`). It also passes symbols to `scan` without
    `to_internal`.
17. **`complete_all_sums_entirely`** (recognizer.rs) takes exponential time on acyclic grammars whose one-symbol rules are declared
    from the bottom up, as `remap_symbols` keeps that order: a group is completed again for each chain of one-symbol rules
    leading to it (`C47_climb`, `C47_exponential`). Results stay correct (C01 does not need the order), and the factor
    depends on the grammar only (`C43_any`, `C47_chains`).
18. **`complete_leo`** (recognizer.rs) is `todo!()`: with `P::LEO` the recognizer panics, without it right recursion takes quadratic
    time without look-ahead (`C49_right_recursion`), while left recursion takes linear time (`C50_left_linear`). With exact FOLLOW
    sets and the hints of `parse` right-linear grammars take linear time as well (`C53_right_linear`).
19. **`test_ambiguous_arithmetic`** expects the values [2, 1, 3, 7, 8]; by finding 3 the code yields [2, 0, 8]
    (`Examples/Conformance`, with C20).
20. **`test_leo`** expects 18 sums. This is the number without look-ahead; with exact FOLLOW sets and the hints of `parse` the
    recognizer makes 6 (`Examples/Conformance`).
21. **Positions** (recognizer.rs:147): `self.earleme() as Origin` and `earleme + 1` limit the number of sets that are kept to 2^32;
    with right recursion the limit is reached by an input of 2^32 - 1 tokens (`C51_sharp`). With left-linear grammars there is no
    limit (`C51_left_linear`).
22. **Calculators, numbers** (precedenced_math/mod.rs:37-40, 75): `number ::= digit number` is right recursive, but the evaluator
    computes `a0 * 10 + a1`. A number is taken for ten times the sum of all digits but the last, plus the last: 123 is 33
    (`C56_long_numbers_simple`, `C56_long_numbers_compact`).
23. **Calculators, renumbered tokens** (precedenced_math/mod.rs:51): `Recognizer::scan` passes the parser's number of a token to the
    forest, `leaf` of the calculators has a table by the user's numbers. The end of the input gets the number 0, so with a stable
    sort every digit is taken for the next one, and 9 panics (`C56_shifted_simple`, `C56_shifted_compact`). No order that puts the
    left-hand sides of the one-symbol rules before the digits makes all tokens right (`C56_no_order`). The repository's
    `test_sequence` asserts the shift (plus 1 -> 2, minus 2 -> 3) and has its evaluator written for it.
24. **Evaluation of ambiguous forests** (simple-bocage/src/traverse.rs:24, compact-bocage/src/traverse.rs:24): `evaluate` does not
    keep the results of nodes that are used several times, so that it takes exponential time in the number of tokens for a forest of
    cubic size (`C57_exponential_simple`, `C57_exponential_compact`).
25. **`ambiguous_math`** (ambiguous_math/mod.rs:40-51): the evaluator takes the first three of its arguments for left operand,
    operation and right operand. For ambiguous inputs the arguments are all values of the left operand, then the operation, then all
    values of the right operand (C58). If the left operand has two operations or more, its second value is taken for the operation
    (`C59_wrong_operands`): `1-0-0-0` has the value 0 although all ways to group it have the value 1 (`C59_wrong_value`), and
    `9-9-9-9` reaches `unreachable!()` (`C59_unreachable`). Numbers of tokens are a problem as in 23 (`C59_shifted_simple`,
    `C59_shifted_compact`, `C59_no_order`).
26. **Logging** (recognizer.rs:123-130): with feature `log`, `begin_earleme` reads a row of the prediction matrix that does not exist
    if failed positions are not reset. A client that goes on after `end_earleme` returned `false` is served without the feature and
    panics at the ninth position with it (`C60_sharp`).
27. **C grammar** (grammar.panini:291): the rule for array designators is `rbracket constant_expression rbracket`; the first symbol
    should be `lbracket`. Initializers such as `{ [0] = 1 }` are rejected (`C61_no_designator`) and `{ ]0] = 1 }` is accepted
    (`C61_wrong_designator`). The table of the C lexer drops `auto` and `__func__` (lib.rs:140, 174, 214), so that `f(__func__);` is
    read as `f();`.

28. **Web page** (gearley-wasm/src/lib.rs:257): `"".split(" ")` is one empty word. In mode `basic` the empty input, a space at the end
    and two spaces in a row are rejected, although the grammar may derive the words (`C62_empty_input`, `C62_trailing_space`,
    `C62_empty_witness`). The branches that show `failed to finish the parse` are dead (`C62_never_unfinished`). A call with an
    unknown mode leaves a line `begin` for the output of the next call (`C62_history`).

29. **Order of declaration** (lib.rs:236-278 with recognizer.rs `complete_all_sums_entirely`): what the evaluator returns depends on the
    order in which the user declares the symbols. For `S ::= X b`, `X ::= Y | a`, `Y ::= a` and the input `a b`, the rule of `S` is
    applied once to three values if `X` is declared before `Y`, and twice to two values each if `Y` is declared before `X`
    (`C58_needs_order`). In the latter case there are two nodes for `X` over the same range, the forest is not packed
    (`C44_needs_order_simple`, `C44_needs_order_compact`, `C45_needs_order`), and the order of items with equal keys, which
    `sort_unstable_by_key` leaves open, can be observed (`C42_needs_order`).

## 5. Wrong programs

`seeded/LOG.jsonl` has one line per experiment: a model definition edited as a realistic bug would (in a copy outside of this
directory), the claim that becomes false, and the theorems that no longer prove. Theorems downstream of a failing lemma are counted
as failed: modules are compiled with failing proofs replaced by `sorry`, and a theorem fails if it depends on one. Edits that
repair a defect of the code are included: the witness theorems then fail.
