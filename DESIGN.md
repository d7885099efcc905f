# A Lean 4 model of google/bongo

## Layout

* `lean/Verif/Model/`: an executable transcription of the Rust in `/repo/src`, one Lean definition
  per Rust function (or per loop body), each with a comment citing the file and lines it models and
  saying where it simplifies.
* `lean/Verif/Spec/`: small specifications that do not mention how the code computes anything:
  context-free derivations (`Cfg`), derivation trees (`Tree`), what builder calls declare (`Decl`),
  accepted grammars (`Api`), the wrapped grammar written out (`Start`), null choices (`NonNull`), trees of the transformed grammars (`NonNullTree`, `StartTree`),
  meaning of passes without memoisation (`Pass`), histories of calls on trees (`Forest`), readable
  trees and the panic conditions of the parser (`Earley`), LALR items (`Lalr`), what Follows
  records (`Follow`), positions in productions (`State`), lines and columns (`Buffer`), where strings can be cut (`Strings`), printed forms (`Pretty`, `Debug`), cost bounds (`Work`).
* `lean/Verif/Proof/`: lemmas.
* `lean/Verif/Props/`: the property theorems, next to each an `example` that a concrete, non-trivial
  case meets its hypotheses. `MANIFEST.json` says which theorems are a property's.
* `seeded/LOG.jsonl`: wrong programs tried against the theorems; `seeded/AUTO.jsonl`: the same for edits generated from the
  source of the model (each with the first proof that failed, or why it is not a wrong program, or which theorem was added).

## Trusted base

* Lean 4.33.0's kernel. Nothing rests on compiled code (`native_decide`, `bv_decide` are not used);
  no axioms are declared. The theorems depend on at most `propext`, `Classical.choice` and
  `Quot.sound` (vcheck and `#print axioms` agree).
* That the definitions under `Model/` say what the Rust does. They were transcribed by reading; the
  Rust was not built or run. The conventions below are part of this.
* That the statements under `Spec/` and `Props/` say what the English says.

## Conventions of the model

* Integers are unbounded `Nat`, except in `Model/Machine` (C111), where the additions that could
  overflow are done on `w`-bit integers, with and without overflow checks. Running out of memory and
  stack overflow are not modelled.
* `&mut` becomes a returned value. A panic is the explicit value `Res.panic site`. A loop takes fuel,
  and running out is `Res.oof`, which no theorem counts as a result: "terminates" means that from some
  fuel on the answer is a result (and then the same for all larger fuels; `_mono` lemmas).
* `BTreeMap`/`BTreeSet` are sorted association lists/lists with the comparison the Rust `Ord`
  implements. This matters: several of the crate's `Ord`s are coarser than equality, and the model
  keeps that. Where the standard library does not promise which of several equal keys survives
  (`collect`), the model takes any function meeting its contract as a parameter; likewise for
  `binary_search_by` and for the grapheme segmentation.
* `Ord` on the user's types is assumed lawful (`Std.TransOrd`, `Std.LawfulEqOrd`; for token values C130 only
  assumes a total preorder), and `Eq` to be
  equality.
* References compared by address (`RefCompare`) are modelled by an address map; theorems hold for
  every map that gives different productions of the grammar different addresses (`AddrInj`). The maps
  a Rust program can meet are fewer: the productions of a rule are the entries of one array
  (`AddrPlaced`). C87 needs this, and the refutations that depend on addresses are given for such maps.
* A builder closure is the list of calls it makes. A pass is the tree of its requests. An iterator
  passed to a tree operation is the list of its items (for locking, the list of calls it makes).
* The nodes and alternatives of trees are indices into an explicit memory; a history is any sequence
  of public calls with handles obtained earlier. For concurrency the unit is the critical section
  (`RwLock` read or write), in two models: lock operations with an arbitrary admission policy
  (deadlock), and interleaved sections (linearisation). Weak memory is not modelled: `RwLock`
  orders the sections.

## What is modelled

| file | modelled | not modelled |
|------|----------|--------------|
| `src/grammar/base.rs`, `base/builder.rs` | all of it (`Model/Grammar`, printing in `Model/Pretty`, `Model/Debug`) | the `pretty` crate's choice of line breaks (every choice is allowed) |
| `src/grammar/base/cmp_wrappers.rs` | `Model/Refs`: comparison of rules and productions | |
| `src/grammar/base/element_types.rs` | names as strings (`Model/Pretty`), `Hash` (`Model/Hash`) | |
| `src/grammar/passes/mod.rs` | `get_pass`, the context, the crate's three passes (`Model/Pass`) | the `TypeId` downcast, which cannot fail |
| `src/grammar/passes/nullable*.rs` | all of it (`Model/Nullable`, printing in `Model/DebugActions`) | |
| `src/grammar/passes/firsts.rs`, `follows.rs` | all of it (`Model/Firsts`) | |
| `src/grammar/transform/nonnull.rs` | all of it (`Model/NonNull`, printing in `Model/DebugActions`) | |
| `src/start_grammar.rs` | all of it (`Model/Start`, printing in `Model/Pretty`, `Model/Debug`, `Model/DebugActions`) | |
| `src/state.rs` | all of it (`Model/State`; `take_closure` with functions that have effects in `Model/Effects`; machine integers in `Model/Machine`; `FromIterator` in `Model/Collect`) | |
| `src/parsers/mod.rs` | `Token`, `VecTokenStream` (`Model/TokenStream`) | |
| `src/parsers/earley.rs`, `earley/state.rs` | all of it (`Model/Earley`; again as the sequence of its tree calls, interleaved with other threads, in `Model/EarleyProg`) | logging |
| `src/parsers/lalr.rs` | all of it (`Model/Lalr`) | |
| `src/parsers/tree.rs` | all public operations, locks, the graph, names and labels given to the `dot` crate (`Model/Tree`, `Model/Dot`, `Model/Lock`), `to_dot` among other threads (`Model/DotShared`), panics of the user's functions and lock poisoning (`Model/Poison`, for `to_dot` `Model/DotPanics`) | the text `dot::render` makes of them; panics of `Drop` |
| `src/utils.rs` | loops, change tracking, search, grouping, `CollectMap`, `Name` heap, `TreeNode`, `TreeValue` (`Model/Utils`, `Model/Name`, `Model/Orders`), `Hash` (`Model/Hash`) | |
| `src/utils/buffer.rs` | all of it (`Model/Buffer`) | `source_name` |
| `src/utils/mergeables.rs`, `type_map.rs` | all of it (`Model/Mergeables`, `Model/TypeMap`) | |
| `src/utils/fmt.rs`, `Debug` implementations | the helpers and the implementations for names, symbols, elements, productions, rules, grammars, build errors, states, actions and null trees, on a model of `std`'s builders (`Model/Debug`, `Model/DebugActions`) | derived `Debug` of the remaining types; format options other than `#` |
| `src/utils/graph_closure.rs` | | a stub (one empty method) |
| `src/grammar/examples.rs`, `examples/*_earley.rs` | all of it (`Model/Examples`) | output |
| `#[cfg(test)]` | the 19 `#[test]`s, run on the model (`Props/RepoTests`, examples only) | |

## How the properties are proved

* Grammars (C01–C06, C78, C79, C81, C82, C84, C91): breadth-first search computes the transitive closure; acceptance is
  then a case analysis over the three error sets.
* Utilities (C07–C14, C61, C76): loop invariants, and refinement to finite maps or to a heap.
* Nullable, Firsts, Follows (C15–C23, C66, C67): the fixed-point loops reach exactly the least fixed
  point (a `collect` lemma for monotone insertion rules), which is related to derivations by
  induction on derivations in both directions; termination by a finite universe of facts.
* Passes (C24–C26, C75): an invariant of the cache over an inductive big-step meaning.
* Start wrapper, non-null transform (C27–C32, C60, C70, C114, C123, C124, C126): translation of derivations both ways.
* Trees (C33–C38, C62, C71, C80, C98, C117, C119, C131): invariants over all histories; for locks, over all interleavings.
* Earley parser (C39–C47, C64, C65, C68, C69, C85–C90, C94–C97, C99–C101, C107, C108, C116, C118, C120): the chart equals an inductive deduction system
  (`EParse`), which equals a semantic description through derivations. The loops' invariants are
  parametric in a labelling of the tree nodes, so one run gives soundness of the forest for several
  notions. For C87 a run is related to a canonical account of it (`Proof/Canon*`), in which nodes are
  named by the state and position they were made for, so addresses no longer occur. Termination: every pass of a closing loop adds one of finitely many facts.
* Production states, LALR (C48–C52, C63, C72–C74, C83, C111, C115, C125, C139): invariants of the loops; the exact content as an
  inductive definition, and its relation to the textbook closure. Along a text (C139): by induction on the shifts;
  finiteness, because the items and lookaheads are from finite sets and states are sorted.
* Costs (C102, C106): rounds of the analyses by levels of a monotone rule; for parses, a potential argument over the facts of the chart in a fresh tree; the bound is carried
  to used and shared trees by replaying the history as other threads' steps.
* User functions with effects (C109): an invariant that the calls made, those still to be made and the
  items seen are the same up to order.
* Printing (C92, C93, C103, C104, C110, C121, C122): the texts a document may print as; their tokens do not depend on the layout,
  and determine the grammar. `Debug` texts are read back from left to right, part by part.
* Other names (C127, C128, C132): a simulation, function by function, between runs on the two sides; for building and the
  analyses, through the exact characterizations of their results.
* Classes of grammars (C107, C137, C140): two trees over texts that begin alike are compared from left to right. C138: different productions of the
  transform of an LL(1) grammar come from the same production only if a nonterminal was left out of one of them,
  and what begins a nonterminal that can be empty cannot follow it; so the transform is factored. C140: from the exact condition of C68. C141: from C140, C45, C46, C85.
* C142: with the labels of C46 each node has at most one alternative per production, plus a leaf, as the branches in the table belong to entries of
  the sets; so the facts a closing loop can add are linear in the length of the input.
* C143: a choice of null elements and texts for the elements that stay are the same as texts for the first elements with empty ones in the same places,
  so the faults of C141 for the transformed grammar are statements about the original one; the trees are those of C100.
* C144: induction on trees: an action key and the head determine the production, and so the elements that the children derive. C145: with C44–C46 and C108.
* C146: `to_dot` as a program of reads; induction on programs for the locks, simulation of the drawing of C131 for the rest.
* C147: as C143, with derivations in which productions that derive the empty text are empty in place of those of the grammar (C70, C124). C148: the two correspondences of C100 and C145, one after the other. C149: counting with C32, and the bounds of C102 and C142.
* Larger grammars, longer inputs (C135, C136): derivations, direct follows and clashes are monotone in the productions; with the exact
  characterizations of the passes and of `parse`, applied on both sides.
* Values and keys (C129, C130, C133, C134): the canonical account of a run under a map of values or keys; for values that compare equal, the
  run over the classes of values, and an invariant that the tree keeps the first value of each class; for keys that compare equal, a simulation
  between the run and one in which a linear extension tells all keys apart (the branches a parse asks for with different keys have different
  nodes, so none of them is confused).
* Orders and hashes (C112, C113): mutual induction on trees; the end mark of strings is no byte of a character.
* Token stream, buffers, strings (C53–C59, C61, C77, C105): induction over the text; UTF-8 offset lemmas; the
  order of UTF-8 sequences by cases on the lengths of the first characters that differ.

## Properties

| id | property | status | theorems |
|----|----------|--------|----------|
| C01 | Exact outcome of building a grammar | proved | `build_exact` |
| C02 | Every nonterminal in an accepted grammar can be looked up | proved | `get_rule_total` |
| C03 | Rules are keyed by head and the last declaration wins | proved | `try_get_rule_last`, `rules_listing`, `prods_listing` |
| C04 | Every rule of an accepted grammar is reachable from the start | partial | `rules_reachable_partial`, `unreachable_rule_accepted`, `start_reported_unreachable` |
| C05 | The (head, action key) pair identifies a production | partial | `prod_key_unique_partial`, `build_ignores_actions`, `duplicate_prod_key_accepted` |
| C06 | Builders record exactly what was added, in order | proved | `production_builder_records`, `rule_builder_records`, `grammar_builder_records` |
| C07 | Breadth-first search visits exactly the nodes one or more steps away | proved | `bfs_exact`, `bfs_answer`, `bfs_panics` |
| C08 | CollectMap behaves like a map to sets and reports changes truthfully | proved | `collectMap_contents`, `collectMap_keys`, `collectMap_reports`, `collectMap_sorted` |
| C09 | Change loops stop only at a state where a pass reports nothing changed | proved | `changeLoop_exact`, `changeIter_exact`, `fixedPoint_exact` |
| C10 | apply_fixed_point computes the closure of its target | partial | `apply_fixed_point_diverges`, `apply_fixed_point_partial` |
| C11 | Grouping helpers group | proved | `mergeValuePairs_exact`, `shuffleIter_exact`, `takeOnly_exact` |
| C12 | MergableMap merges under equal keys | proved | `mergable_run`, `mergable_changed`, `mergable_interchangeable` |
| C13 | TypeMap is a well-typed heterogeneous map | proved | `cmpConcrete_ok`, `type_map_correct` |
| C14 | Modifying a Name never changes another Name | proved | `name_str`, `name_make_mut`, `name_heap_exact` |
| C15 | Nullability is exact | proved | `nullable_exact` |
| C16 | Nullable ambiguity is reported exactly | proved | `nullable_ambiguity_exact` |
| C17 | The Nullable pass always terminates and never panics | proved | `nullable_terminates`, `calculateNullables_mono` |
| C18 | The recorded null tree is the empty derivation | proved | `null_tree_exact`, `null_tree_sorted` |
| C19 | FIRST sets are exact | proved | `firsts_exact` |
| C20 | The Firsts pass always terminates, and fails exactly when Nullable fails | proved | `firsts_terminates`, `firsts_key_exact` |
| C21 | FOLLOW sets are sound | proved | `follows_sound` |
| C22 | FOLLOW sets are complete | partial | `follows_complete_partial`, `follows_incomplete` |
| C23 | The Follows pass terminates without panicking | partial | `follows_outcome_partial`, `follows_panics` |
| C24 | A pass result is computed once and then shared | proved | `pass_computed_once`, `pass_value_meaning`, `pass_value_shared` |
| C25 | Cyclic pass dependencies are detected | partial | `pass_terminates`, `pass_cycle_panics`, `pass_fresh_exact`, `pass_acyclic_no_panic_partial`, `pass_acyclic_histories`, `pass_acyclic_panics`, `crate_pass_firsts`, `crate_pass_follows` |
| C26 | A failing pass fails the same way each time | partial | `failed_pass_panics_again`, `pass_error_stable_partial` |
| C27 | Wrapping with a start symbol always succeeds on an accepted grammar | proved | `wrap_exact`, `start_prod_exact`, `start_prod_any`, `start_accessors`, `start_orders` |
| C28 | Wrapping preserves the language | proved | `wrap_language`, `wrap_language_nt` |
| C29 | The non-null transform only derives strings of the original | proved | `nonnull_sound`, `nonnull_sound_language` |
| C30 | The non-null transform removes nullability | proved | `nonnull_no_nullable` |
| C31 | The non-null transform keeps every nonempty string | partial | `nonnull_complete_partial`, `nonnull_language_exact`, `nonnull_loses_string` |
| C32 | Each transformed production is one null/non-null choice of an original production, tagged with it | proved | `nonnull_prods_exact`, `nonnull_keys_unique` |
| C33 | Alternatives are interned | proved | `leaf_alt_reads_back`, `branch_alt_reads_back`, `alts_interned` |
| C34 | A node's alternatives are exactly those added | proved | `node_alts_exact`, `makeNode_fresh`, `addAlt_reports`, `addAll_reports` |
| C35 | Handles obtained from a tree never go stale | proved | `calls_never_fail`, `reads_are_stable` |
| C36 | Trees do not mix | proved | `mixing_panics`, `other_trees_unchanged`, `makeLeafNode_history`, `makeBranchNode_history`, `makeBranchNode_mixed` |
| C37 | The dot export contains the whole forest | partial | `dot_graph_partial`, `dot_omits_root` |
| C38 | Concurrent use of one tree does not deadlock | partial | `locks_progress_partial`, `flat_calls_progress_partial`, `single_thread_progress_partial`, `lock_steps_terminate`, `lazy_branch_deadlocks`, `add_alt_can_deadlock` |
| C39 | An accepted input is in the language | proved | `parse_some_in_language` |
| C40 | A rejected input is not in the language | proved | `parse_none_not_in_language` |
| C41 | The parser always terminates | proved | `parse_terminates`, `parse_mono` |
| C42 | The parser never panics | partial | `parse_exact`, `parse_no_panic_partial`, `parse_panics`, `parse_nullable_start_panics`, `parse_left_recursion_panics`, `parse_panics_not_viable`, `parse_panics_left_recursion` |
| C43 | The result does not depend on where productions live in memory | proved | `parse_layout_independent` |
| C44 | Every parse tree of the input is in the returned forest | proved | `parse_all_trees` |
| C45 | Every tree in the returned forest is a derivation tree of the grammar | proved | `parse_trees_grammatical` |
| C46 | Every tree in the returned forest spells the input | partial | `parse_trees_spell_partial`, `parse_trees_spell_unambiguous`, `parse_tree_not_spelling`, `parse_trees_not_spell` |
| C47 | Parsing leaves earlier forests alone | proved | `parse_frame` |
| C48 | A set of production states keeps every state added to it | partial | `prodStateSet_loses_states`, `prodStateSet_add_partial`, `prodStateSet_keeps_partial`, `prodStateSet_readers` |
| C49 | ProdState positions stay in range and advance through the production | proved | `prodState_visits`, `prodState_position`, `prodState_advanceIf` |
| C50 | take_closure computes the least closed superset | partial | `takeClosure_closed`, `takeClosure_exact_partial`, `takeClosure_misses` |
| C51 | The LALR closure contains an item for every production of every nonterminal after the dot | partial | `lalr_state_exact`, `lalr_outcome`, `lalr_closure_present_partial`, `lalr_closure_textbook_partial`, `lalr_collision`, `lalr_no_lookahead`, `lalr_ignores_nullable` |
| C52 | LALR shift actions move the dot over the token | proved | `lalr_shift_exact`, `lalr_shift_outcome`, `lalr_reducable_exact`, `lalr_reducable_mem` |
| C53 | A vector token stream yields its tokens in order | partial | `token_stream_empty_partial`, `token_stream_panics`, `token_stream_never_some`, `token_stream_repaired` |
| C54 | Reading a buffer range yields its characters | proved | `buffer_read`, `buffer_read_all`, `buffer_new_text` |
| C55 | advance_n takes exactly n characters or nothing | proved | `buffer_advance` |
| C56 | remove_suffix splits the text | proved | `buffer_remove_read`, `buffer_remove_suffix` |
| C57 | Buffer operations never slice inside a character | proved | `buffer_no_panic`, `range_ordered` |
| C58 | Line numbers count line terminators | proved | `buffer_line` |
| C59 | Columns count graphemes from the line start | proved | `buffer_column` |
| C60 | transform_to_nonnull always returns, with an exact success condition | proved | `nonnull_outcome`, `nonnull_doc_example_rejected` |
| C61 | A BufferRangeKey is its text | proved | `range_key_cmp` |
| C62 | Concurrent calls on trees take effect one at a time | proved | `concurrent_calls_linearize`, `concurrent_call_can_continue` |
| C63 | Equality of LALR states | partial | `lalr_state_eq_partial`, `lalr_state_eq_ignores_positions` |
| C64 | A parse is a sequence of public tree calls on the given tree | proved | `parse_is_history` |
| C65 | A forest returned by a parse reads the same after later parses | proved | `parse_keeps_forests`, `parse_parse` |
| C66 | Exact content of Follows | proved | `follows_exact` |
| C67 | Exact outcome of the Follows pass | proved | `follows_outcome` |
| C68 | Exact outcome of parse | proved | `parse_exact`, `parse_panics` |
| C69 | For unambiguous grammars the returned forest holds only trees of the input | proved | `parse_trees_spell_unambiguous` |
| C70 | Exact language of the non-null transform | proved | `nonnull_language_exact` |
| C71 | Exact content of the dot export | proved | `dot_graph_exact` |
| C72 | Exact effect of adding to a set of production states | proved | `prodStateSet_add_exact`, `prodStateSet_readers` |
| C73 | Exact content and outcome of LALR states | proved | `lalr_state_exact`, `lalr_outcome` |
| C74 | Exact meaning of equality of LALR states | proved | `lalr_state_eq_exact` |
| C75 | Exact outcome of asking for a pass | proved | `pass_fresh_exact`, `failed_pass_panics_again` |
| C76 | Exact outcome of apply_fixed_point | proved | `apply_fixed_point_exact` |
| C77 | Exact outcome of VecTokenStream::next | proved | `token_stream_exact`, `token_stream_never_some` |
| C78 | Exactly which rules of an accepted grammar are reachable | proved | `rule_reachable_iff` |
| C79 | Exactly when the production key identifies the production | proved | `prod_key_unique_iff` |
| C80 | When calls on trees cannot deadlock | proved | `tree_calls_progress`, `lock_steps_terminate` |
| C81 | Comparing rules: a total order within a grammar, a panic across grammars | proved | `rule_compare_exact` |
| C82 | Comparing productions: identity, also across grammars; rule_set | proved | `prod_compare_exact`, `rule_set_exact` |
| C83 | Exact meaning of equality of sets of production states | proved | `prodStateSet_eq_exact` |
| C84 | Orders of elements are lawful | proved | `element_orders` |
| C85 | Children chosen independently are in the forest | proved | `parse_mixed_trees`, `mix_of_tree` |
| C86 | An upper bound of the forest | proved | `parse_trees_loose`, `Mix.loose` |
| C87 | The forest does not depend on memory layout | proved | `parse_forest_layout_independent`, `parse_walk_layout_independent`, `layouts_exist`, `layouts_injective` |
| C88 | Parsing in a tree that other threads use | proved | `parseProg_run`, `parse_among_others`, `parse_among_others_language` |
| C89 | A parse is invisible to the other users of the tree, also when it is abandoned | proved | `parse_leaves_history`, `parse_unobservable`, `calls_never_fail` |
| C90 | Other threads cannot keep a parse from finishing | proved | `parse_work_among_others`, `parse_among_others` |
| C91 | The accessors report what was declared | proved | `production_accessors`, `grammar_elements` |
| C92 | Printing shows the whole grammar | proved | `printed_is_listing`, `printed_wrapped` |
| C93 | The printed text determines the grammar, except for the actions | proved | `printed_determines`, `printed_ignores_actions`, `printed_ambiguous` |
| C94 | The example grammars and programs | proved | `example_grammars_build`, `simple_language`, `nullable_languages`, `paren_language`, `nested_language`, `simple_outcome`, `nested_outcome`, `paren_outcome`, `nullable_outcome`, `simple_earley_main`, `simple_earley_program`, `unwrap_failed_build`, `ambiguous_earley_main` |
| C95 | One tree for unambiguous grammars | proved | `parse_one_tree` |
| C96 | Outcomes of parse when no production can be at two positions at once | proved | `parse_outcome_noClash` |
| C97 | A start symbol that derives the empty word makes every parse panic | proved | `parse_nullable_start_exact` |
| C98 | The drawing made by to_dot | proved | `to_dot_exact`, `to_dot_edges`, `dot_names`, `dotIdNew_iff` |
| C99 | Any number of parses in shared trees | proved | `fleet_parse`, `fleet_language`, `fleet_history`, `fleet_unobservable` |
| C100 | The trees of the non-null grammar stand for trees of the original | proved | `nonnull_trees`, `nonnull_unambiguous`, `nonnull_unambiguous_iff`, `nonnull_no_dead_ends`, `nonnull_accepted`, `nonnull_parse` |
| C101 | The trees of the wrapped grammar | proved | `wrap_trees`, `wrap_unambiguous` |
| C102 | What a parse costs | proved | `parse_work_any_memory`, `parse_work_polynomial`, `parse_passes_polynomial`, `parse_work_polynomial_shared`, `parse_memory_polynomial` |
| C103 | What Debug shows of a grammar | proved | `debug_shows_rules`, `debug_determines`, `debug_eq_iff`, `debug_layout`, `debug_hides_start`, `debug_ambiguous` |
| C104 | What Debug shows of states and errors | proved | `prodState_debug`, `earleyState_debug`, `grammarErrors_debug` |
| C105 | Strings are compared, measured and cut by their bytes | proved | `name_order`, `strCmp_lawful`, `range_key_name`, `slice_bytes`, `range_bytes` |
| C106 | How many rounds the analyses take | proved | `nullable_rounds`, `nullable_rounds_sharp`, `firsts_rounds`, `follows_rounds`, `lalr_state_rounds`, `build_rounds` |
| C107 | Grammars on which parse can be relied on | proved | `prefixFree_parse`, `prefixFree_no_clash`, `prefixFree_splits_once`, `ll1_prefixFree`, `rightLinear_prefixFree`, `ll1_unambiguous`, `ll1_parse`, `ll1_check`, `ll1_check_possible` |
| C108 | Walking down the returned forest | partial | `parse_walk_ends_iff`, `parse_walk_ends_trees`, `parse_walk_ends_partial`, `acyclic_trees_finite`, `cyclic_trees_infinite`, `acyclic_walk_ends`, `unambiguous_trees_finite`, `unambiguous_walk_ends`, `ll1_walk_ends`, `acyclic_of_no_units`, `parse_walk_endless`, `parse_trees_endless`, `parse_walk_layout_independent` |
| C109 | User functions with effects are asked each question once | proved | `bfs_effects`, `bfs_effects_panic`, `bfs_effects_returns`, `bfs_effects_pure`, `takeClosure_effects`, `takeClosure_effects_panic`, `takeClosure_effects_returns`, `takeClosure_effects_pure`, `fixedPoint_effects`, `fixedPoint_effects_panic`, `fixedPoint_effects_pure` |
| C110 | The text written by the formatting helpers | proved | `list_fmt_text`, `set_fmt_text`, `tuple_fmt_text`, `struct_fmt_text`, `earleySet_debug`, `linesOf_spec` |
| C111 | Looking ahead in a production, on machine integers | partial | `offset_machine_partial`, `offset_overflows`, `offset_wraps`, `next_machine`, `advanceIf_machine`, `tokenStream_machine` |
| C112 | The orders of the library's types are lawful | proved | `prodKey_order`, `startActionKey_order`, `startSymbols_order`, `nnActionKey_order`, `wasChanged_order`, `handles_order`, `nodeView_order`, `treeValue_order`, `treeNode_order`, `treeNode_new`, `treeValue_eq`, `voidTree_iso`, `noCompare_key` |
| C113 | Names as hash keys | proved | `name_hash`, `name_hash_lists`, `symbol_hash`, `name_hash_memory`, `wasChanged_hash` |
| C114 | Transforming again, and transforming wrapped grammars | proved | `nonnull_nothing_null`, `nonnull_twice`, `tagged_cfg`, `nonnull_wrapped_outcome`, `nonnull_wrapped_succeeds`, `nonnull_wrapped_language`, `nonnull_wrapped_compare`, `wrap_before_nonnull` |
| C115 | Collecting production states | proved | `prodStateSet_fromIter`, `prodStateSet_fromIter_differs`, `collect_set_exact`, `collect_map_exact`, `collect_set_spec`, `collect_map_spec`, `collect_set_lawful`, `collect_map_lawful` |
| C116 | parse on start grammars that were not made by wrapping | proved | `parse_start_exact`, `parse_start_terminates`, `parse_start_some`, `parse_start_isSome`, `parse_start_not_sentence`, `parse_start_layout` |
| C117 | Panics of the user's functions inside calls on trees | proved | `user_panics_isolated`, `user_panics_only`, `poisoned_iff`, `poisoned_forever`, `first_lock`, `pstep_other`, `parse_with_panics`, `parse_with_panics_ok` |
| C118 | The order in which the productions of a rule are added | proved | `parse_forest_order_free`, `parse_forest_order_dependent` |
| C119 | Write locks | proved | `write_lock_iff`, `read_lock_iff`, `changes_under_write_lock`, `isSame_locks`, `branch_iterator_locks`, `branch_iterator_stops` |
| C120 | The shape of the forest | proved | `parse_forest_shape`, `parse_dot_shape`, `same_shape_reads`, `same_shape_under`, `parse_node_index_layout` |
| C121 | Debug of transformed actions and of null trees | proved | `nonnull_key_debug`, `wrapped_nonnull_key_debug`, `null_tree_debug`, `nonnull_value_debug`, `nullable_info_debug`, `nullable_info_plain`, `nonnull_actions_plain`, `nonnullExample_texts` |
| C122 | Pretty-printed actions and the errors of the transform | proved | `printed_nonnull_key`, `printed_nonnull_value`, `printed_wrapped_actions`, `printed_unit`, `nonnull_printed_alike`, `nonnull_error_text` |
| C123 | The analyses of a wrapped grammar | proved | `wrapped_nullable`, `wrapped_firsts`, `wrapped_follows` |
| C124 | The analyses of a transformed grammar | proved | `nonnull_sentential`, `nonnull_nullable`, `nonnull_firsts`, `nonnull_follows`, `nonnull_textbook` |
| C125 | Building LALR states uses the pass context like plain requests | proved | `from_prod_context`, `shift_context`, `shift_error_context`, `shift_no_error` |
| C126 | The textbook sets by wrapping and transforming | proved | `wrapped_nonnull_textbook`, `nonnull_outcome_simple`, `wrapped_nonnull_outcome_simple` |
| C127 | Names and orders of the user's types do not matter to trees and parses | proved | `calls_renamed`, `parse_renamed`, `parse_renamed_outcome`, `parse_renamed_reads` |
| C128 | Names and orders of the user's types do not matter to building, analyses and transforms | proved | `build_renamed`, `nullable_renamed`, `firsts_renamed`, `follows_renamed`, `nonnull_renamed` |
| C129 | Token values are only carried along | proved | `parse_values_outcome`, `parse_values_carried` |
| C130 | Values that compare equal | proved | `calls_like`, `leaf_alt_reads_first`, `leaf_alts_interned`, `parse_exact_like`, `parse_reads_first`, `parse_all_trees_first`, `parse_trees_grammatical_first`, `parse_values_replaced` |
| C131 | Drawing a forest while other threads use the tree | proved | `to_dot_among_others`, `to_dot_among_others_edges`, `to_dot_among_others_returns`, `to_dot_undisturbed`, `to_dot_may_dangle`, `to_dot_may_never_return` |
| C132 | Names and orders of the user's types do not matter to LALR states | proved | `lalr_state_renamed`, `lalr_shift_renamed`, `lalr_reducable_renamed` |
| C133 | Action keys are only carried along by the parser | proved | `parse_keys_outcome`, `parse_keys_carried` |
| C134 | Kinds, action keys and values that compare equal | proved | `calls_alike`, `alt_reads_first`, `alts_interned_alike`, `parse_exact_alike`, `parse_reads_alike`, `parse_all_trees_alike`, `parse_trees_grammatical_alike` |
| C135 | Adding productions to a grammar | proved | `extend_nullable_error`, `extend_nullable`, `extend_firsts`, `extend_follows`, `extend_parse_outcome`, `extend_trees`, `extend_relied`, `extend_nonnull_loses` |
| C136 | Continuing an input | proved | `parse_panic_continues`, `parse_emptyState_hopeless`, `parse_returns_continuable` |
| C137 | Right-recursive grammars on which parse can be relied on | proved | `separated_parse`, `separated_no_clash`, `separated_splits_once`, `prefixFree_separated`, `factored_separated`, `factored_unambiguous`, `factored_parse`, `factored_walk_ends`, `ll1_factored`, `factored_check` |
| C138 | LL(1) grammars with empty productions: transform, then parse | proved | `ll1null_factored`, `ll1null_unambiguous`, `ll1null_parse_cut`, `ll1null_parse`, `ll1null_check` |
| C139 | Shifting tokens one after another in LALR states | proved | `lalr_shift_deterministic`, `lalr_run_deterministic`, `lalr_shift_finite`, `lalr_shift_sound`, `lalr_shift_viable`, `lalr_reduce_sound`, `lalr_shift_items`, `lalr_shift_offers` |
| C140 | Grammars of which parse does not accept every text | proved | `fails_exact`, `reliable_exact`, `reliable_shape`, `overlaps_of_derives`, `overlaps_of_leftRecursion`, `overlaps_of_nullable`, `nonnull_of_not_overlaps` |
| C141 | Exactly the grammars for which parse is right | proved | `wrong_exact`, `right_exact`, `right_outcome`, `divides_in_text`, `not_divides_of_unambiguous`, `separated_no_faults`, `faults_extend`, `right_smaller` |
| C142 | What a parse costs if inputs are divided in one way only | proved | `parse_work_once`, `parse_passes_once`, `parse_work_once_shared`, `parse_memory_once`, `parse_work_grammar` |
| C143 | Exactly the grammars for which transforming and then parsing is right | proved | `nonnull_right_exact`, `nonnull_right_outcome`, `nonnull_wrong_exact`, `not_dividesFilled_of_unambiguous`, `ll1null_no_faults`, `no_faults_of_fixed`, `nonnull_overlaps`, `nonnull_divides`, `nonnull_trim` |
| C144 | Action keys tell derivation trees apart | proved | `keys_tell_trees`, `read_tree_of_one`, `ambiguous_iff_two_read`, `two_read_of_ambiguous`, `unambiguous_iff_one_read` |
| C145 | Counting the trees in the forest | proved | `reads_bijOn`, `reads_count`, `reads_count_ge`, `reads_count_le`, `right_walks_end_iff` |
| C146 | Drawing a forest when locks are poisoned and Debug panics | proved | `to_dot_locks`, `to_dot_poisoned`, `to_dot_no_panics`, `to_dot_debug_among_others`, `to_dot_debug_exact`, `to_dot_after_panics` |
| C147 | Transforming and then parsing is right: all grammars | proved | `cut_right_exact`, `cut_right_all`, `cut_right_outcome`, `cut_wrong_exact`, `cutTrim_of_trim`, `cut_not_dividesFilled_of_unambiguous`, `cut_ll1null_no_faults`, `Cfg.no_faults_of_fixed` |
| C148 | Counting trees after the transform | proved | `nonnull_keys_tell`, `cut_reads_bijOn`, `cut_reads_count`, `nonnull_ambiguous_iff_two_read` |
| C149 | What transforming costs a parse | proved | `nonnull_size_exact`, `nonnull_size_le`, `nonnull_elements_le`, `nonnull_parse_work`, `nonnull_parse_work_once` |

No property was judged inexpressible.

## Properties that are false of the code, or proved in part

Each is kept as a user would state it; beside the refutation (a theorem about a concrete program)
stands what is true, as an exact condition where possible.

* **C04** (Every rule of an accepted grammar is reachable from the start). The property is false of the code: both halves are refuted by concrete accepted/rejected grammars; proved: every nonterminal written in a body is reachable.
* **C05** (The (head, action key) pair identifies a production). False of the code (refuted by a concrete accepted grammar): acceptance ignores action keys; proved: unique if action keys are distinct within each rule.
* **C10** (apply_fixed_point computes the closure of its target). False of the code: apply_fixed_point never removes keys from its worklist and diverges; proved what holds.
* **C22** (FOLLOW sets are complete). False of the code when nullable nonterminals occur (follows_incomplete refutes it on a concrete accepted grammar); proved for grammars where no nonterminal directly after a nonterminal in a production is nullable; the exact content for all grammars is C66.
* **C23** (The Follows pass terminates without panicking). False of the code (follows_panics); the exact panic condition is proved.
* **C25** (Cyclic pass dependencies are detected). Cycle detection proved in full; the acyclic half is false of the code for a pass that swallows an error and asks again (pass_acyclic_panics), proved for passes that propagate errors with `?`.
* **C26** (A failing pass fails the same way each time). False of the code: asking again always panics (failed_pass_panics_again).
* **C31** (The non-null transform keeps every nonempty string). False of the code (nonnull_loses_string): every production that can vanish is dropped. Exactly which strings survive is proved (nonnull_language_exact), and completeness when only empty productions vanish.
* **C37** (The dot export contains the whole forest). False as stated (dot_omits_root): the search never marks its starting node, so the given node and its arrows are missing unless it lies on a cycle. Proved: termination, no panic, and that the lists are exactly everything one or more arrows away.
* **C38** (Concurrent use of one tree does not deadlock). False as stated: an iterator that makes nodes while make_branch_alt consumes it blocks its own thread under every policy (lazy_branch_deadlocks), and two add_alt calls block each other when waiting writers go first (add_alt_can_deadlock). Proved: progress for locks that admit readers while no writer holds, for calls taking one lock at a time, and for one thread.
* **C42** (The parser never panics). False as stated: parse panics exactly if some prefix of the input cannot begin a sentence, or some production can be at two positions after it (parse_exact); so on every use of a directly left-recursive production, on every input if the start symbol is nullable, and on most inputs outside the language. Proved: the exact condition and which assertion fails; no panic outside it.
* **C46** (Every tree in the returned forest spells the input). False as stated (parse_tree_not_spelling: a b c d e is parsed into a forest with a tree spelling a b b c d e), because merging two ways to reach an item merges the nodes of its children separately. Proved for inputs whose parts are divided by productions in only one way, and so for all unambiguous grammars without dead ends; whenever a production can divide its part of an accepted input in two ways, the claim fails (parse_trees_not_spell).
* **C48** (A set of production states keeps every state added to it). False as stated (prodStateSet_loses_states): Ord/Eq of ProdState ignore the position, so a second state of the same production is dropped. Proved: exactly what add does, sets without such a collision keep every state, and complete()/nexts() report exactly the states of the set.
* **C50** (take_closure computes the least closed superset). Termination, containment and closedness for every closure function over the grammar's productions; the exact set of productions for closure functions that do not depend on the position; takeClosure_misses refutes the statement for position-dependent functions.
* **C51** (The LALR closure contains an item for every production of every nonterminal after the dot). False as stated: a production already in the state at another position is not added at position 0 (lalr_collision, which also makes the state refuse a sentence of the language), nothing is added without lookaheads (lalr_no_lookahead), and lookaheads ignore nullable nonterminals (lalr_ignores_nullable). Proved: the exact content of every state, termination and the exact panic condition, presence under the missing conditions, soundness and (without nullables after nonterminals) equality with the textbook LR(1) closure.
* **C53** (A vector token stream yields its tokens in order). False of the code: the first next on any nonempty stream panics (token_stream_panics) and no stream ever yields a token; proved for the empty stream, and that with that one comparison turned round the stream yields its tokens in order (token_stream_repaired).
* **C63** (Equality of LALR states). False as stated: positions are not compared (lalr_state_eq_ignores_positions). Proved: the exact meaning of equality.
* **C108** (Walking down the returned forest). The first sentence is false of the code (parse_walk_endless: for N -> X c | v, X -> N M, M -> b c b | b and the input v b c b c the merging of insert makes a cycle, with one order of the productions of M and not with the other), and proved where productions divide the input in one way only (in particular for unambiguous grammars, and for those of C107 in which no nonterminal derives itself); the other two are proved in full. The notions are in Spec/Walk.
* **C111** (Looking ahead in a production, on machine integers). The second half is proved. The first is false of the code where the position and i add up to 2^w or more: with overflow checks the call panics, and without them looking 2^w - j ahead gives the j-th element before the position. Otherwise it holds (offset_machine_partial).
