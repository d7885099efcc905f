{
 "claims": [
  {
   "property": "C01",
   "status": "proved",
   "theorems": [
    "Bongo.build_exact"
   ],
   "note": ""
  },
  {
   "property": "C02",
   "status": "proved",
   "theorems": [
    "Bongo.get_rule_total"
   ],
   "note": ""
  },
  {
   "property": "C03",
   "status": "proved",
   "theorems": [
    "Bongo.try_get_rule_last",
    "Bongo.rules_listing",
    "Bongo.prods_listing"
   ],
   "note": ""
  },
  {
   "property": "C04",
   "status": "partial",
   "theorems": [
    "Bongo.rules_reachable_partial",
    "Bongo.unreachable_rule_accepted",
    "Bongo.start_reported_unreachable"
   ],
   "note": "The property is false of the code: both halves are refuted by concrete accepted/rejected grammars; proved: every nonterminal written in a body is reachable."
  },
  {
   "property": "C05",
   "status": "partial",
   "theorems": [
    "Bongo.prod_key_unique_partial",
    "Bongo.build_ignores_actions",
    "Bongo.duplicate_prod_key_accepted"
   ],
   "note": "False of the code (refuted by a concrete accepted grammar): acceptance ignores action keys; proved: unique if action keys are distinct within each rule."
  },
  {
   "property": "C06",
   "status": "proved",
   "theorems": [
    "Bongo.production_builder_records",
    "Bongo.rule_builder_records",
    "Bongo.grammar_builder_records"
   ],
   "note": ""
  },
  {
   "property": "C07",
   "status": "proved",
   "theorems": [
    "Bongo.bfs_exact",
    "Bongo.bfs_answer",
    "Bongo.bfs_panics"
   ],
   "note": ""
  },
  {
   "property": "C08",
   "status": "proved",
   "theorems": [
    "Bongo.collectMap_contents",
    "Bongo.collectMap_keys",
    "Bongo.collectMap_reports",
    "Bongo.collectMap_sorted"
   ],
   "note": ""
  },
  {
   "property": "C09",
   "status": "proved",
   "theorems": [
    "Bongo.changeLoop_exact",
    "Bongo.changeIter_exact",
    "Bongo.fixedPoint_exact"
   ],
   "note": ""
  },
  {
   "property": "C10",
   "status": "partial",
   "theorems": [
    "Bongo.apply_fixed_point_diverges",
    "Bongo.apply_fixed_point_partial"
   ],
   "note": "False of the code: apply_fixed_point never removes keys from its worklist and diverges; proved what holds."
  },
  {
   "property": "C11",
   "status": "proved",
   "theorems": [
    "Bongo.mergeValuePairs_exact",
    "Bongo.shuffleIter_exact",
    "Bongo.takeOnly_exact"
   ],
   "note": ""
  },
  {
   "property": "C12",
   "status": "proved",
   "theorems": [
    "Bongo.mergable_run",
    "Bongo.mergable_changed",
    "Bongo.mergable_interchangeable"
   ],
   "note": ""
  },
  {
   "property": "C13",
   "status": "proved",
   "theorems": [
    "Bongo.cmpConcrete_ok",
    "Bongo.type_map_correct"
   ],
   "note": ""
  },
  {
   "property": "C14",
   "status": "proved",
   "theorems": [
    "Bongo.name_str",
    "Bongo.name_make_mut",
    "Bongo.name_heap_exact"
   ],
   "note": ""
  },
  {
   "property": "C15",
   "status": "proved",
   "theorems": [
    "Bongo.nullable_exact"
   ],
   "note": ""
  },
  {
   "property": "C16",
   "status": "proved",
   "theorems": [
    "Bongo.nullable_ambiguity_exact"
   ],
   "note": ""
  },
  {
   "property": "C17",
   "status": "proved",
   "theorems": [
    "Bongo.nullable_terminates",
    "Bongo.calculateNullables_mono"
   ],
   "note": ""
  },
  {
   "property": "C18",
   "status": "proved",
   "theorems": [
    "Bongo.null_tree_exact",
    "Bongo.null_tree_sorted"
   ],
   "note": ""
  },
  {
   "property": "C19",
   "status": "proved",
   "theorems": [
    "Bongo.firsts_exact"
   ],
   "note": ""
  },
  {
   "property": "C20",
   "status": "proved",
   "theorems": [
    "Bongo.firsts_terminates",
    "Bongo.firsts_key_exact"
   ],
   "note": ""
  },
  {
   "property": "C21",
   "status": "proved",
   "theorems": [
    "Bongo.follows_sound"
   ],
   "note": ""
  },
  {
   "property": "C22",
   "status": "partial",
   "theorems": [
    "Bongo.follows_complete_partial",
    "Bongo.follows_incomplete"
   ],
   "note": "False of the code when nullable nonterminals occur (follows_incomplete refutes it on a concrete accepted grammar); proved for grammars where no nonterminal directly after a nonterminal in a production is nullable; the exact content for all grammars is C66."
  },
  {
   "property": "C23",
   "status": "partial",
   "theorems": [
    "Bongo.follows_outcome_partial",
    "Bongo.follows_panics"
   ],
   "note": "False of the code (follows_panics); the exact panic condition is proved."
  },
  {
   "property": "C24",
   "status": "proved",
   "theorems": [
    "Bongo.pass_computed_once",
    "Bongo.pass_value_meaning",
    "Bongo.pass_value_shared"
   ],
   "note": ""
  },
  {
   "property": "C25",
   "status": "partial",
   "theorems": [
    "Bongo.pass_terminates",
    "Bongo.pass_cycle_panics",
    "Bongo.pass_fresh_exact",
    "Bongo.pass_acyclic_no_panic_partial",
    "Bongo.pass_acyclic_histories",
    "Bongo.pass_acyclic_panics",
    "Bongo.crate_pass_firsts",
    "Bongo.crate_pass_follows"
   ],
   "note": "Cycle detection proved in full; the acyclic half is false of the code for a pass that swallows an error and asks again (pass_acyclic_panics), proved for passes that propagate errors with `?`."
  },
  {
   "property": "C26",
   "status": "partial",
   "theorems": [
    "Bongo.failed_pass_panics_again",
    "Bongo.pass_error_stable_partial"
   ],
   "note": "False of the code: asking again always panics (failed_pass_panics_again)."
  },
  {
   "property": "C27",
   "status": "proved",
   "theorems": [
    "Bongo.wrap_exact",
    "Bongo.start_prod_exact",
    "Bongo.start_prod_any",
    "Bongo.start_accessors",
    "Bongo.start_orders"
   ],
   "note": ""
  },
  {
   "property": "C28",
   "status": "proved",
   "theorems": [
    "Bongo.wrap_language",
    "Bongo.wrap_language_nt"
   ],
   "note": ""
  },
  {
   "property": "C29",
   "status": "proved",
   "theorems": [
    "Bongo.nonnull_sound",
    "Bongo.nonnull_sound_language"
   ],
   "note": ""
  },
  {
   "property": "C30",
   "status": "proved",
   "theorems": [
    "Bongo.nonnull_no_nullable"
   ],
   "note": ""
  },
  {
   "property": "C31",
   "status": "partial",
   "theorems": [
    "Bongo.nonnull_complete_partial",
    "Bongo.nonnull_language_exact",
    "Bongo.nonnull_loses_string"
   ],
   "note": "False of the code (nonnull_loses_string): every production that can vanish is dropped. Exactly which strings survive is proved (nonnull_language_exact), and completeness when only empty productions vanish."
  },
  {
   "property": "C32",
   "status": "proved",
   "theorems": [
    "Bongo.nonnull_prods_exact",
    "Bongo.nonnull_keys_unique"
   ],
   "note": ""
  },
  {
   "property": "C33",
   "status": "proved",
   "theorems": [
    "Bongo.leaf_alt_reads_back",
    "Bongo.branch_alt_reads_back",
    "Bongo.alts_interned"
   ],
   "note": ""
  },
  {
   "property": "C34",
   "status": "proved",
   "theorems": [
    "Bongo.node_alts_exact",
    "Bongo.makeNode_fresh",
    "Bongo.addAlt_reports",
    "Bongo.addAll_reports"
   ],
   "note": ""
  },
  {
   "property": "C35",
   "status": "proved",
   "theorems": [
    "Bongo.calls_never_fail",
    "Bongo.reads_are_stable"
   ],
   "note": ""
  },
  {
   "property": "C36",
   "status": "proved",
   "theorems": [
    "Bongo.mixing_panics",
    "Bongo.other_trees_unchanged",
    "Bongo.makeLeafNode_history",
    "Bongo.makeBranchNode_history",
    "Bongo.makeBranchNode_mixed"
   ],
   "note": ""
  },
  {
   "property": "C37",
   "status": "partial",
   "theorems": [
    "Bongo.dot_graph_partial",
    "Bongo.dot_omits_root"
   ],
   "note": "False as stated (dot_omits_root): the search never marks its starting node, so the given node and its arrows are missing unless it lies on a cycle. Proved: termination, no panic, and that the lists are exactly everything one or more arrows away."
  },
  {
   "property": "C38",
   "status": "partial",
   "theorems": [
    "Bongo.locks_progress_partial",
    "Bongo.flat_calls_progress_partial",
    "Bongo.single_thread_progress_partial",
    "Bongo.lock_steps_terminate",
    "Bongo.lazy_branch_deadlocks",
    "Bongo.add_alt_can_deadlock"
   ],
   "note": "False as stated: an iterator that makes nodes while make_branch_alt consumes it blocks its own thread under every policy (lazy_branch_deadlocks), and two add_alt calls block each other when waiting writers go first (add_alt_can_deadlock). Proved: progress for locks that admit readers while no writer holds, for calls taking one lock at a time, and for one thread."
  },
  {
   "property": "C39",
   "status": "proved",
   "theorems": [
    "Bongo.parse_some_in_language"
   ],
   "note": ""
  },
  {
   "property": "C40",
   "status": "proved",
   "theorems": [
    "Bongo.parse_none_not_in_language"
   ],
   "note": ""
  },
  {
   "property": "C41",
   "status": "proved",
   "theorems": [
    "Bongo.parse_terminates",
    "Bongo.parse_mono"
   ],
   "note": ""
  },
  {
   "property": "C42",
   "status": "partial",
   "theorems": [
    "Bongo.parse_exact",
    "Bongo.parse_no_panic_partial",
    "Bongo.parse_panics",
    "Bongo.parse_nullable_start_panics",
    "Bongo.parse_left_recursion_panics",
    "Bongo.parse_panics_not_viable",
    "Bongo.parse_panics_left_recursion"
   ],
   "note": "False as stated: parse panics exactly if some prefix of the input cannot begin a sentence, or some production can be at two positions after it (parse_exact); so on every use of a directly left-recursive production, on every input if the start symbol is nullable, and on most inputs outside the language. Proved: the exact condition and which assertion fails; no panic outside it."
  },
  {
   "property": "C43",
   "status": "proved",
   "theorems": [
    "Bongo.parse_layout_independent"
   ],
   "note": ""
  },
  {
   "property": "C44",
   "status": "proved",
   "theorems": [
    "Bongo.parse_all_trees"
   ],
   "note": ""
  },
  {
   "property": "C45",
   "status": "proved",
   "theorems": [
    "Bongo.parse_trees_grammatical"
   ],
   "note": ""
  },
  {
   "property": "C46",
   "status": "partial",
   "theorems": [
    "Bongo.parse_trees_spell_partial",
    "Bongo.parse_trees_spell_unambiguous",
    "Bongo.parse_tree_not_spelling",
    "Bongo.parse_trees_not_spell"
   ],
   "note": "False as stated (parse_tree_not_spelling: a b c d e is parsed into a forest with a tree spelling a b b c d e), because merging two ways to reach an item merges the nodes of its children separately. Proved for inputs whose parts are divided by productions in only one way, and so for all unambiguous grammars without dead ends; whenever a production can divide its part of an accepted input in two ways, the claim fails (parse_trees_not_spell)."
  },
  {
   "property": "C47",
   "status": "proved",
   "theorems": [
    "Bongo.parse_frame"
   ],
   "note": ""
  },
  {
   "property": "C48",
   "status": "partial",
   "theorems": [
    "Bongo.prodStateSet_loses_states",
    "Bongo.prodStateSet_add_partial",
    "Bongo.prodStateSet_keeps_partial",
    "Bongo.prodStateSet_readers"
   ],
   "note": "False as stated (prodStateSet_loses_states): Ord/Eq of ProdState ignore the position, so a second state of the same production is dropped. Proved: exactly what add does, sets without such a collision keep every state, and complete()/nexts() report exactly the states of the set."
  },
  {
   "property": "C49",
   "status": "proved",
   "theorems": [
    "Bongo.prodState_visits",
    "Bongo.prodState_position",
    "Bongo.prodState_advanceIf"
   ],
   "note": ""
  },
  {
   "property": "C50",
   "status": "partial",
   "theorems": [
    "Bongo.takeClosure_closed",
    "Bongo.takeClosure_exact_partial",
    "Bongo.takeClosure_misses"
   ],
   "note": "Termination, containment and closedness for every closure function over the grammar's productions; the exact set of productions for closure functions that do not depend on the position; takeClosure_misses refutes the statement for position-dependent functions."
  },
  {
   "property": "C51",
   "status": "partial",
   "theorems": [
    "Bongo.lalr_state_exact",
    "Bongo.lalr_outcome",
    "Bongo.lalr_closure_present_partial",
    "Bongo.lalr_closure_textbook_partial",
    "Bongo.lalr_collision",
    "Bongo.lalr_no_lookahead",
    "Bongo.lalr_ignores_nullable"
   ],
   "note": "False as stated: a production already in the state at another position is not added at position 0 (lalr_collision, which also makes the state refuse a sentence of the language), nothing is added without lookaheads (lalr_no_lookahead), and lookaheads ignore nullable nonterminals (lalr_ignores_nullable). Proved: the exact content of every state, termination and the exact panic condition, presence under the missing conditions, soundness and (without nullables after nonterminals) equality with the textbook LR(1) closure."
  },
  {
   "property": "C52",
   "status": "proved",
   "theorems": [
    "Bongo.lalr_shift_exact",
    "Bongo.lalr_shift_outcome",
    "Bongo.lalr_reducable_exact",
    "Bongo.lalr_reducable_mem"
   ],
   "note": ""
  },
  {
   "property": "C53",
   "status": "partial",
   "theorems": [
    "Bongo.token_stream_empty_partial",
    "Bongo.token_stream_panics",
    "Bongo.token_stream_never_some",
    "Bongo.token_stream_repaired"
   ],
   "note": "False of the code: the first next on any nonempty stream panics (token_stream_panics) and no stream ever yields a token; proved for the empty stream, and that with that one comparison turned round the stream yields its tokens in order (token_stream_repaired)."
  },
  {
   "property": "C54",
   "status": "proved",
   "theorems": [
    "Bongo.buffer_read",
    "Bongo.buffer_read_all",
    "Bongo.buffer_new_text"
   ],
   "note": ""
  },
  {
   "property": "C55",
   "status": "proved",
   "theorems": [
    "Bongo.buffer_advance"
   ],
   "note": ""
  },
  {
   "property": "C56",
   "status": "proved",
   "theorems": [
    "Bongo.buffer_remove_read",
    "Bongo.buffer_remove_suffix"
   ],
   "note": ""
  },
  {
   "property": "C57",
   "status": "proved",
   "theorems": [
    "Bongo.buffer_no_panic",
    "Bongo.range_ordered"
   ],
   "note": ""
  },
  {
   "property": "C58",
   "status": "proved",
   "theorems": [
    "Bongo.buffer_line"
   ],
   "note": ""
  },
  {
   "property": "C59",
   "status": "proved",
   "theorems": [
    "Bongo.buffer_column"
   ],
   "note": ""
  },
  {
   "property": "C60",
   "status": "proved",
   "theorems": [
    "Bongo.nonnull_outcome",
    "Bongo.nonnull_doc_example_rejected"
   ],
   "note": ""
  },
  {
   "property": "C61",
   "status": "proved",
   "theorems": [
    "Bongo.range_key_cmp"
   ],
   "note": ""
  },
  {
   "property": "C62",
   "status": "proved",
   "theorems": [
    "Bongo.concurrent_calls_linearize",
    "Bongo.concurrent_call_can_continue"
   ],
   "note": ""
  },
  {
   "property": "C63",
   "status": "partial",
   "theorems": [
    "Bongo.lalr_state_eq_partial",
    "Bongo.lalr_state_eq_ignores_positions"
   ],
   "note": "False as stated: positions are not compared (lalr_state_eq_ignores_positions). Proved: the exact meaning of equality."
  },
  {
   "property": "C64",
   "status": "proved",
   "theorems": [
    "Bongo.parse_is_history"
   ],
   "note": ""
  },
  {
   "property": "C65",
   "status": "proved",
   "theorems": [
    "Bongo.parse_keeps_forests",
    "Bongo.parse_parse"
   ],
   "note": ""
  },
  {
   "property": "C66",
   "status": "proved",
   "theorems": [
    "Bongo.follows_exact"
   ],
   "note": ""
  },
  {
   "property": "C67",
   "status": "proved",
   "theorems": [
    "Bongo.follows_outcome"
   ],
   "note": ""
  },
  {
   "property": "C68",
   "status": "proved",
   "theorems": [
    "Bongo.parse_exact",
    "Bongo.parse_panics"
   ],
   "note": ""
  },
  {
   "property": "C69",
   "status": "proved",
   "theorems": [
    "Bongo.parse_trees_spell_unambiguous"
   ],
   "note": ""
  },
  {
   "property": "C70",
   "status": "proved",
   "theorems": [
    "Bongo.nonnull_language_exact"
   ],
   "note": ""
  },
  {
   "property": "C71",
   "status": "proved",
   "theorems": [
    "Bongo.dot_graph_exact"
   ],
   "note": ""
  },
  {
   "property": "C72",
   "status": "proved",
   "theorems": [
    "Bongo.prodStateSet_add_exact",
    "Bongo.prodStateSet_readers"
   ],
   "note": ""
  },
  {
   "property": "C73",
   "status": "proved",
   "theorems": [
    "Bongo.lalr_state_exact",
    "Bongo.lalr_outcome"
   ],
   "note": ""
  },
  {
   "property": "C74",
   "status": "proved",
   "theorems": [
    "Bongo.lalr_state_eq_exact"
   ],
   "note": ""
  },
  {
   "property": "C75",
   "status": "proved",
   "theorems": [
    "Bongo.pass_fresh_exact",
    "Bongo.failed_pass_panics_again"
   ],
   "note": ""
  },
  {
   "property": "C76",
   "status": "proved",
   "theorems": [
    "Bongo.apply_fixed_point_exact"
   ],
   "note": ""
  },
  {
   "property": "C77",
   "status": "proved",
   "theorems": [
    "Bongo.token_stream_exact",
    "Bongo.token_stream_never_some"
   ],
   "note": ""
  },
  {
   "property": "C78",
   "status": "proved",
   "theorems": [
    "Bongo.rule_reachable_iff"
   ],
   "note": ""
  },
  {
   "property": "C79",
   "status": "proved",
   "theorems": [
    "Bongo.prod_key_unique_iff"
   ],
   "note": ""
  },
  {
   "property": "C80",
   "status": "proved",
   "theorems": [
    "Bongo.tree_calls_progress",
    "Bongo.lock_steps_terminate"
   ],
   "note": ""
  },
  {
   "property": "C81",
   "status": "proved",
   "theorems": [
    "Bongo.rule_compare_exact"
   ],
   "note": ""
  },
  {
   "property": "C82",
   "status": "proved",
   "theorems": [
    "Bongo.prod_compare_exact",
    "Bongo.rule_set_exact"
   ],
   "note": ""
  },
  {
   "property": "C83",
   "status": "proved",
   "theorems": [
    "Bongo.prodStateSet_eq_exact"
   ],
   "note": ""
  },
  {
   "property": "C84",
   "status": "proved",
   "theorems": [
    "Bongo.element_orders"
   ],
   "note": ""
  },
  {
   "property": "C85",
   "status": "proved",
   "theorems": [
    "Bongo.parse_mixed_trees",
    "Bongo.mix_of_tree"
   ],
   "note": ""
  },
  {
   "property": "C86",
   "status": "proved",
   "theorems": [
    "Bongo.parse_trees_loose",
    "Bongo.Mix.loose"
   ],
   "note": ""
  },
  {
   "property": "C87",
   "status": "proved",
   "theorems": [
    "Bongo.parse_forest_layout_independent",
    "Bongo.parse_walk_layout_independent",
    "Bongo.layouts_exist",
    "Bongo.layouts_injective"
   ],
   "note": "AddrPlaced (Spec/Api) are the layouts Rust can give: the productions of one rule are the entries of one array, so only the arrays of different rules can lie in another order. What the forest does depend on is the order in which the productions of a rule were added (C118)."
  },
  {
   "property": "C88",
   "status": "proved",
   "theorems": [
    "Bongo.parseProg_run",
    "Bongo.parse_among_others",
    "Bongo.parse_among_others_language"
   ],
   "note": ""
  },
  {
   "property": "C89",
   "status": "proved",
   "theorems": [
    "Bongo.parse_leaves_history",
    "Bongo.parse_unobservable",
    "Bongo.calls_never_fail"
   ],
   "note": ""
  },
  {
   "property": "C90",
   "status": "proved",
   "theorems": [
    "Bongo.parse_work_among_others",
    "Bongo.parse_among_others"
   ],
   "note": ""
  },
  {
   "property": "C91",
   "status": "proved",
   "theorems": [
    "Bongo.production_accessors",
    "Bongo.grammar_elements"
   ],
   "note": ""
  },
  {
   "property": "C92",
   "status": "proved",
   "theorems": [
    "Bongo.printed_is_listing",
    "Bongo.printed_wrapped"
   ],
   "note": ""
  },
  {
   "property": "C93",
   "status": "proved",
   "theorems": [
    "Bongo.printed_determines",
    "Bongo.printed_ignores_actions",
    "Bongo.printed_ambiguous"
   ],
   "note": "printed_ambiguous shows that the condition on names is needed."
  },
  {
   "property": "C94",
   "status": "proved",
   "theorems": [
    "Bongo.example_grammars_build",
    "Bongo.simple_language",
    "Bongo.nullable_languages",
    "Bongo.paren_language",
    "Bongo.nested_language",
    "Bongo.simple_outcome",
    "Bongo.nested_outcome",
    "Bongo.paren_outcome",
    "Bongo.nullable_outcome",
    "Bongo.simple_earley_main",
    "Bongo.simple_earley_program",
    "Bongo.unwrap_failed_build",
    "Bongo.ambiguous_earley_main"
   ],
   "note": ""
  },
  {
   "property": "C95",
   "status": "proved",
   "theorems": [
    "Bongo.parse_one_tree"
   ],
   "note": ""
  },
  {
   "property": "C96",
   "status": "proved",
   "theorems": [
    "Bongo.parse_outcome_noClash"
   ],
   "note": ""
  },
  {
   "property": "C97",
   "status": "proved",
   "theorems": [
    "Bongo.parse_nullable_start_exact"
   ],
   "note": ""
  },
  {
   "property": "C98",
   "status": "proved",
   "theorems": [
    "Bongo.to_dot_exact",
    "Bongo.to_dot_edges",
    "Bongo.dot_names",
    "Bongo.dotIdNew_iff"
   ],
   "note": ""
  },
  {
   "property": "C99",
   "status": "proved",
   "theorems": [
    "Bongo.fleet_parse",
    "Bongo.fleet_language",
    "Bongo.fleet_history",
    "Bongo.fleet_unobservable"
   ],
   "note": ""
  },
  {
   "property": "C100",
   "status": "proved",
   "theorems": [
    "Bongo.nonnull_trees",
    "Bongo.nonnull_unambiguous",
    "Bongo.nonnull_unambiguous_iff",
    "Bongo.nonnull_no_dead_ends",
    "Bongo.nonnull_accepted",
    "Bongo.nonnull_parse"
   ],
   "note": "Refilled and Solid (Spec/NonNullTree) say where the empty trees go and which trees are reached. Witness: optExample."
  },
  {
   "property": "C101",
   "status": "proved",
   "theorems": [
    "Bongo.wrap_trees",
    "Bongo.wrap_unambiguous"
   ],
   "note": "Witness: rightExample."
  },
  {
   "property": "C102",
   "status": "proved",
   "theorems": [
    "Bongo.parse_work_any_memory",
    "Bongo.parse_work_polynomial",
    "Bongo.parse_passes_polynomial",
    "Bongo.parse_work_polynomial_shared",
    "Bongo.parse_memory_polynomial"
   ],
   "note": "workFactor, passFactor and Inner.size are in Spec/Work. Witness: rightExample."
  },
  {
   "property": "C103",
   "status": "proved",
   "theorems": [
    "Bongo.debug_shows_rules",
    "Bongo.debug_determines",
    "Bongo.debug_eq_iff",
    "Bongo.debug_layout",
    "Bongo.debug_hides_start",
    "Bongo.debug_ambiguous"
   ],
   "note": "debug_ambiguous shows that the condition on names is needed. Plain names: Spec/Debug. Witness: printExample."
  },
  {
   "property": "C104",
   "status": "proved",
   "theorems": [
    "Bongo.prodState_debug",
    "Bongo.earleyState_debug",
    "Bongo.grammarErrors_debug"
   ],
   "note": "Witnesses next to the theorems."
  },
  {
   "property": "C105",
   "status": "proved",
   "theorems": [
    "Bongo.name_order",
    "Bongo.strCmp_lawful",
    "Bongo.range_key_name",
    "Bongo.slice_bytes",
    "Bongo.range_bytes"
   ],
   "note": "The encoding of a character is Lean's String.utf8EncodeChar; CharBoundary (std's is_char_boundary) is in Spec/Strings. Witnesses with characters of one, two and three bytes."
  },
  {
   "property": "C106",
   "status": "proved",
   "theorems": [
    "Bongo.nullable_rounds",
    "Bongo.nullable_rounds_sharp",
    "Bongo.firsts_rounds",
    "Bongo.follows_rounds",
    "Bongo.lalr_state_rounds",
    "Bongo.build_rounds"
   ],
   "note": "A round is one unit of the model's fuel, which bounds the iterations of each loop (and the nesting of pass requests, which needs 10). Witnesses: end of Props/CostSharp."
  },
  {
   "property": "C107",
   "status": "proved",
   "theorems": [
    "Bongo.prefixFree_parse",
    "Bongo.prefixFree_no_clash",
    "Bongo.prefixFree_splits_once",
    "Bongo.ll1_prefixFree",
    "Bongo.rightLinear_prefixFree",
    "Bongo.ll1_unambiguous",
    "Bongo.ll1_parse",
    "Bongo.ll1_check",
    "Bongo.ll1_check_possible"
   ],
   "note": "The classes are in Spec/LL1. Witnesses: centreExample with all three outcomes, regularExample (ambiguous and cyclic)."
  },
  {
   "property": "C108",
   "status": "partial",
   "theorems": [
    "Bongo.parse_walk_ends_iff",
    "Bongo.parse_walk_ends_trees",
    "Bongo.parse_walk_ends_partial",
    "Bongo.acyclic_trees_finite",
    "Bongo.cyclic_trees_infinite",
    "Bongo.acyclic_walk_ends",
    "Bongo.unambiguous_trees_finite",
    "Bongo.unambiguous_walk_ends",
    "Bongo.ll1_walk_ends",
    "Bongo.acyclic_of_no_units",
    "Bongo.parse_walk_endless",
    "Bongo.parse_trees_endless",
    "Bongo.parse_walk_layout_independent"
   ],
   "note": "The first sentence is false of the code (parse_walk_endless: for N -> X c | v, X -> N M, M -> b c b | b and the input v b c b c the merging of insert makes a cycle, with one order of the productions of M and not with the other), and proved where productions divide the input in one way only (in particular for unambiguous grammars, and for those of C107 in which no nonterminal derives itself); the other two are proved in full. The notions are in Spec/Walk."
  },
  {
   "property": "C109",
   "status": "proved",
   "theorems": [
    "Bongo.bfs_effects",
    "Bongo.bfs_effects_panic",
    "Bongo.bfs_effects_returns",
    "Bongo.bfs_effects_pure",
    "Bongo.takeClosure_effects",
    "Bongo.takeClosure_effects_panic",
    "Bongo.takeClosure_effects_returns",
    "Bongo.takeClosure_effects_pure",
    "Bongo.fixedPoint_effects",
    "Bongo.fixedPoint_effects_panic",
    "Bongo.fixedPoint_effects_pure"
   ],
   "note": "The notions are in Spec/Effects. take_closure: for functions that stay in the grammar, and up to the positions that Ord of states ignores (C48). Witnesses next to the theorems."
  },
  {
   "property": "C110",
   "status": "proved",
   "theorems": [
    "Bongo.list_fmt_text",
    "Bongo.set_fmt_text",
    "Bongo.tuple_fmt_text",
    "Bongo.struct_fmt_text",
    "Bongo.earleySet_debug",
    "Bongo.linesOf_spec"
   ],
   "note": "The layouts are in Spec/Fmt. Found by mutation batch 14: these helpers had a model but no theorem. Witnesses at the end of Props/Fmt."
  },
  {
   "property": "C111",
   "status": "partial",
   "theorems": [
    "Bongo.offset_machine_partial",
    "Bongo.offset_overflows",
    "Bongo.offset_wraps",
    "Bongo.next_machine",
    "Bongo.advanceIf_machine",
    "Bongo.tokenStream_machine"
   ],
   "note": "The second half is proved. The first is false of the code where the position and i add up to 2^w or more: with overflow checks the call panics, and without them looking 2^w - j ahead gives the j-th element before the position. Otherwise it holds (offset_machine_partial)."
  },
  {
   "property": "C112",
   "status": "proved",
   "theorems": [
    "Bongo.prodKey_order",
    "Bongo.startActionKey_order",
    "Bongo.startSymbols_order",
    "Bongo.nnActionKey_order",
    "Bongo.wasChanged_order",
    "Bongo.handles_order",
    "Bongo.nodeView_order",
    "Bongo.treeValue_order",
    "Bongo.treeNode_order",
    "Bongo.treeNode_new",
    "Bongo.treeValue_eq",
    "Bongo.voidTree_iso",
    "Bongo.noCompare_key"
   ],
   "note": "LawfulOrder and the order of trees (TreeLt) are in Spec/Orders; the derived orders in Model/Orders. voidTree_iso: the model's trees of null actions are the trees without leaves. Witnesses at the end of Props/Orders."
  },
  {
   "property": "C113",
   "status": "proved",
   "theorems": [
    "Bongo.name_hash",
    "Bongo.name_hash_lists",
    "Bongo.symbol_hash",
    "Bongo.name_hash_memory",
    "Bongo.wasChanged_hash"
   ],
   "note": "Modelled is what is fed to the hasher (std: the UTF-8 bytes and 0xFF). Witnesses at the end of Props/Hash."
  },
  {
   "property": "C114",
   "status": "proved",
   "theorems": [
    "Bongo.nonnull_nothing_null",
    "Bongo.nonnull_twice",
    "Bongo.tagged_cfg",
    "Bongo.nonnull_wrapped_outcome",
    "Bongo.nonnull_wrapped_succeeds",
    "Bongo.nonnull_wrapped_language",
    "Bongo.nonnull_wrapped_compare",
    "Bongo.wrap_before_nonnull"
   ],
   "note": "Tagged grammars are in Spec/Compose; what the transform keeps of the language (cutNull) is that of C30. Witnesses next to the theorems."
  },
  {
   "property": "C115",
   "status": "proved",
   "theorems": [
    "Bongo.prodStateSet_fromIter",
    "Bongo.prodStateSet_fromIter_differs",
    "Bongo.collect_set_exact",
    "Bongo.collect_map_exact",
    "Bongo.collect_set_spec",
    "Bongo.collect_map_spec",
    "Bongo.collect_set_lawful",
    "Bongo.collect_map_lawful"
   ],
   "note": "Both implementations are in Model/Collect. collect_set_spec and collect_map_spec: both meet what the other theorems about sets of states and LALR states assume of collecting; collect_*_lawful: why the rest of the model can use insertion."
  },
  {
   "property": "C116",
   "status": "proved",
   "theorems": [
    "Bongo.parse_start_exact",
    "Bongo.parse_start_terminates",
    "Bongo.parse_start_some",
    "Bongo.parse_start_isSome",
    "Bongo.parse_start_not_sentence",
    "Bongo.parse_start_layout"
   ],
   "note": "Spec/StartParse has the notions (At, TwoPlaces, StartReduced, StopsAt, FirstStop). The theorems about wrapped grammars (C39-C47) are the special case in which Start -> S EOS is the only production with an end of stream. Witnesses at the end of Props/StartParse."
  },
  {
   "property": "C117",
   "status": "proved",
   "theorems": [
    "Bongo.user_panics_isolated",
    "Bongo.user_panics_only",
    "Bongo.poisoned_iff",
    "Bongo.poisoned_forever",
    "Bongo.first_lock",
    "Bongo.pstep_other",
    "Bongo.parse_with_panics",
    "Bongo.parse_with_panics_ok"
   ],
   "note": "Model/Poison has the calls with panics; a history with panics (PHistory) extends History. Panics of Drop and of the allocator are not modelled. Witnesses at the end of Props/Poison."
  },
  {
   "property": "C118",
   "status": "proved",
   "theorems": [
    "Bongo.parse_forest_order_free",
    "Bongo.parse_forest_order_dependent"
   ],
   "note": "Grammar.Reordered is in Spec/Mix. Witnesses beside the theorems in Props/Mix."
  },
  {
   "property": "C119",
   "status": "proved",
   "theorems": [
    "Bongo.write_lock_iff",
    "Bongo.read_lock_iff",
    "Bongo.changes_under_write_lock",
    "Bongo.isSame_locks",
    "Bongo.branch_iterator_locks",
    "Bongo.branch_iterator_stops"
   ],
   "note": "acts lists the lock operations of a call (Model/Lock, Model/Poison)."
  },
  {
   "property": "C120",
   "status": "proved",
   "theorems": [
    "Bongo.parse_forest_shape",
    "Bongo.parse_dot_shape",
    "Bongo.same_shape_reads",
    "Bongo.same_shape_under",
    "Bongo.parse_node_index_layout"
   ],
   "note": "SameAlt, SameForest, SameDot and Under (Spec/SameForest) use only the public operations on nodes. The order of the alternatives of a node and the indices of nodes do depend on the layout. Witness beside the theorems in Props/SameForest."
  },
  {
   "property": "C121",
   "status": "proved",
   "theorems": [
    "Bongo.nonnull_key_debug",
    "Bongo.wrapped_nonnull_key_debug",
    "Bongo.null_tree_debug",
    "Bongo.nonnull_value_debug",
    "Bongo.nullable_info_debug",
    "Bongo.nullable_info_plain",
    "Bongo.nonnull_actions_plain",
    "Bongo.nonnullExample_texts"
   ],
   "note": "Plain names: Spec/Debug, Spec/DebugActions. nullable_info_plain and nonnull_actions_plain: what the library makes of a grammar with plain names meets the conditions. Witnesses beside the theorems."
  },
  {
   "property": "C122",
   "status": "proved",
   "theorems": [
    "Bongo.printed_nonnull_key",
    "Bongo.printed_nonnull_value",
    "Bongo.printed_wrapped_actions",
    "Bongo.printed_unit",
    "Bongo.nonnull_printed_alike",
    "Bongo.nonnull_error_text"
   ],
   "note": "The conditions under which the transform fails are those of C16 and C60. Witnesses beside the theorems."
  },
  {
   "property": "C123",
   "status": "proved",
   "theorems": [
    "Bongo.wrapped_nullable",
    "Bongo.wrapped_firsts",
    "Bongo.wrapped_follows"
   ],
   "note": "The FIRST sets are equal as stored sets (also None for None). Witnesses for all outcomes at the end of Props/WrappedPasses."
  },
  {
   "property": "C124",
   "status": "proved",
   "theorems": [
    "Bongo.nonnull_sentential",
    "Bongo.nonnull_nullable",
    "Bongo.nonnull_firsts",
    "Bongo.nonnull_follows",
    "Bongo.nonnull_textbook"
   ],
   "note": "cutNull (Spec/NonNull) is the grammar of C70. Witness at the end of Props/NonNullPasses: a grammar whose FOLLOW set is incomplete before the transform and complete after it."
  },
  {
   "property": "C125",
   "status": "proved",
   "theorems": [
    "Bongo.from_prod_context",
    "Bongo.shift_context",
    "Bongo.shift_error_context",
    "Bongo.shift_no_error"
   ],
   "note": ""
  },
  {
   "property": "C126",
   "status": "proved",
   "theorems": [
    "Bongo.wrapped_nonnull_textbook",
    "Bongo.nonnull_outcome_simple",
    "Bongo.wrapped_nonnull_outcome_simple"
   ],
   "note": "NoDeadEnds is in Spec/Earley. Witnesses at the end of Props/Pipeline."
  },
  {
   "property": "C127",
   "status": "proved",
   "theorems": [
    "Bongo.calls_renamed",
    "Bongo.parse_renamed",
    "Bongo.parse_renamed_outcome",
    "Bongo.parse_renamed_reads"
   ],
   "note": "Spec/Rename says what renamed means; the identifiers of elements are kept. Witnesses (all orders turned around) at the end of Props/Rename."
  },
  {
   "property": "C128",
   "status": "proved",
   "theorems": [
    "Bongo.build_renamed",
    "Bongo.nullable_renamed",
    "Bongo.firsts_renamed",
    "Bongo.follows_renamed",
    "Bongo.nonnull_renamed"
   ],
   "note": "Spec/Rename says what renamed means. The null trees are equal, not only equal up to order, since parameters keep their names. Witnesses at the end of Props/RenamePasses."
  },
  {
   "property": "C129",
   "status": "proved",
   "theorems": [
    "Bongo.parse_values_outcome",
    "Bongo.parse_values_carried"
   ],
   "note": "Any function on values, injective or not. Witnesses at the end of Props/Values."
  },
  {
   "property": "C130",
   "status": "proved",
   "theorems": [
    "Bongo.calls_like",
    "Bongo.leaf_alt_reads_first",
    "Bongo.leaf_alts_interned",
    "Bongo.parse_exact_like",
    "Bongo.parse_reads_first",
    "Bongo.parse_all_trees_first",
    "Bongo.parse_trees_grammatical_first",
    "Bongo.parse_values_replaced"
   ],
   "note": "firstLike (Spec/Values) is the first token given to the tree with the same kind and a value that compares equal. parse_values_replaced: a parse whose forest does not read the tokens of the input. Witness PlacedWord, an order that ignores positions."
  },
  {
   "property": "C131",
   "status": "proved",
   "theorems": [
    "Bongo.to_dot_among_others",
    "Bongo.to_dot_among_others_edges",
    "Bongo.to_dot_among_others_returns",
    "Bongo.to_dot_undisturbed",
    "Bongo.to_dot_may_dangle",
    "Bongo.to_dot_may_never_return"
   ],
   "note": "Spec/DotShared: DrawnBetween says what the drawing shows, Moments what other threads may do between two reads. The last two theorems are the schedules with an edge to an undrawn alternative and with a drawing that never ends. The order of the calls dot::render makes is that of the dot crate, whose source is not in /repo. Witnesses (towerAt) in Props/DotShared."
  },
  {
   "property": "C132",
   "status": "proved",
   "theorems": [
    "Bongo.lalr_state_renamed",
    "Bongo.lalr_shift_renamed",
    "Bongo.lalr_reducable_renamed"
   ],
   "note": "Spec/RenameLalr says what renamed means. shift_actions is on contexts that have yielded the FIRST sets, as every state obtained from them requires (C125). Witness (all orders turned around) at the end of Props/RenameLalr."
  },
  {
   "property": "C133",
   "status": "proved",
   "theorems": [
    "Bongo.parse_keys_outcome",
    "Bongo.parse_keys_carried"
   ],
   "note": "ρ.SymInjective asks nothing of the keys and values. Witness at the end of Props/Keys: two trees with different keys become one."
  },
  {
   "property": "C134",
   "status": "proved",
   "theorems": [
    "Bongo.calls_alike",
    "Bongo.alt_reads_first",
    "Bongo.alts_interned_alike",
    "Bongo.parse_exact_alike",
    "Bongo.parse_reads_alike",
    "Bongo.parse_all_trees_alike",
    "Bongo.parse_trees_grammatical_alike"
   ],
   "note": "Spec/Keys: alike, madeOn, Shows. In the first three theorems kinds, keys and values are ordered by any total preorder (TransOrd); in those about parse keys and values are, and the order of terminals and nonterminals is lawful. Witnesses (placedKeys, and the hypotheses of calls_alike) at the end of Props/KeysLike."
  },
  {
   "property": "C135",
   "status": "proved",
   "theorems": [
    "Bongo.extend_nullable_error",
    "Bongo.extend_nullable",
    "Bongo.extend_firsts",
    "Bongo.extend_follows",
    "Bongo.extend_parse_outcome",
    "Bongo.extend_trees",
    "Bongo.extend_relied",
    "Bongo.extend_nonnull_loses"
   ],
   "note": "Spec/Extend: ExtendedTo allows further productions anywhere in the rules; parseRank is the row of outcomes. extend_nonnull_loses is the pair of grammars for the last sentence. Witnesses (growing: one input takes all four outcomes in turn) at the end of Props/Extend."
  },
  {
   "property": "C136",
   "status": "proved",
   "theorems": [
    "Bongo.parse_panic_continues",
    "Bongo.parse_emptyState_hopeless",
    "Bongo.parse_returns_continuable"
   ],
   "note": "From the exact condition of parse_exact, by prefixes. Witnesses at the end of Props/Extend."
  },
  {
   "property": "C137",
   "status": "proved",
   "theorems": [
    "Bongo.separated_parse",
    "Bongo.separated_no_clash",
    "Bongo.separated_splits_once",
    "Bongo.prefixFree_separated",
    "Bongo.factored_separated",
    "Bongo.factored_unambiguous",
    "Bongo.factored_parse",
    "Bongo.factored_walk_ends",
    "Bongo.ll1_factored",
    "Bongo.factored_check"
   ],
   "note": "The classes SeparatedInside, Factored and its check are in Spec/Factored. Witness: sumExample (sums of products with brackets, not covered by C107) with all three outcomes."
  },
  {
   "property": "C138",
   "status": "proved",
   "theorems": [
    "Bongo.ll1null_factored",
    "Bongo.ll1null_unambiguous",
    "Bongo.ll1null_parse_cut",
    "Bongo.ll1null_parse",
    "Bongo.ll1null_check"
   ],
   "note": "Spec/LL1Null has the condition and its check. Witness: listExample (S -> [ L ], L -> empty | n M, M -> empty | , n M) with all outcomes."
  },
  {
   "property": "C139",
   "status": "proved",
   "theorems": [
    "Bongo.lalr_shift_deterministic",
    "Bongo.lalr_run_deterministic",
    "Bongo.lalr_shift_finite",
    "Bongo.lalr_shift_sound",
    "Bongo.lalr_shift_viable",
    "Bongo.lalr_reduce_sound",
    "Bongo.lalr_shift_items",
    "Bongo.lalr_shift_offers"
   ],
   "note": "Spec/LalrRun: ShiftRun, ShiftItem (textbook), StartKernel, NoShiftClash. The last two theorems state the condition on lookaheads as: the kernel's are nonempty, and every nonterminal that directly follows a nonterminal begins with some terminal. Witnesses at the end of Props/LalrRun, with the text for which NoShiftClash fails."
  },
  {
   "property": "C140",
   "status": "proved",
   "theorems": [
    "Bongo.fails_exact",
    "Bongo.reliable_exact",
    "Bongo.reliable_shape",
    "Bongo.overlaps_of_derives",
    "Bongo.overlaps_of_leftRecursion",
    "Bongo.overlaps_of_nullable",
    "Bongo.nonnull_of_not_overlaps"
   ],
   "note": "Spec/Fails: Overlaps, Trim. Witnesses at the end of Props/Fails: infixExample (fails), rightExample (reliable)."
  },
  {
   "property": "C141",
   "status": "proved",
   "theorems": [
    "Bongo.wrong_exact",
    "Bongo.right_exact",
    "Bongo.right_outcome",
    "Bongo.divides_in_text",
    "Bongo.not_divides_of_unambiguous",
    "Bongo.separated_no_faults",
    "Bongo.faults_extend",
    "Bongo.right_smaller"
   ],
   "note": "Spec/Right: Divides. Witnesses at the end of Props/Right: divExample (third fault only), lateExample (right, but outside C137)."
  },
  {
   "property": "C142",
   "status": "proved",
   "theorems": [
    "Bongo.parse_work_once",
    "Bongo.parse_passes_once",
    "Bongo.parse_work_once_shared",
    "Bongo.parse_memory_once",
    "Bongo.parse_work_grammar"
   ],
   "note": "Constants in Spec/Work. Witness: lateExample at the end of Props/WorkOnce."
  },
  {
   "property": "C143",
   "status": "proved",
   "theorems": [
    "Bongo.nonnull_right_exact",
    "Bongo.nonnull_right_outcome",
    "Bongo.nonnull_wrong_exact",
    "Bongo.not_dividesFilled_of_unambiguous",
    "Bongo.ll1null_no_faults",
    "Bongo.no_faults_of_fixed",
    "Bongo.nonnull_overlaps",
    "Bongo.nonnull_divides",
    "Bongo.nonnull_trim"
   ],
   "note": "Spec/RightNull: Fills, OverlapsFilled, DividesFilled. Witnesses at the end of Props/RightNull: twiceExample (right after the transform, though parse panics on it directly), longExample (first fault)."
  },
  {
   "property": "C144",
   "status": "proved",
   "theorems": [
    "Bongo.keys_tell_trees",
    "Bongo.read_tree_of_one",
    "Bongo.ambiguous_iff_two_read",
    "Bongo.two_read_of_ambiguous",
    "Bongo.unambiguous_iff_one_read"
   ],
   "note": "Witnesses at the end of Props/KeysTell: twoWays (two trees), sameKey (without the condition on keys two derivation trees give one tree), lateExample (unambiguous_iff_one_read)."
  },
  {
   "property": "C145",
   "status": "proved",
   "theorems": [
    "Bongo.reads_bijOn",
    "Bongo.reads_count",
    "Bongo.reads_count_ge",
    "Bongo.reads_count_le",
    "Bongo.right_walks_end_iff"
   ],
   "note": "treesOf, WalkEnds and Acyclic are in Spec/Walk. Witnesses at the end of Props/TreeCount: twoWays, lateExample, and cycleExample, for which parse is right and some walk does not end."
  },
  {
   "property": "C146",
   "status": "proved",
   "theorems": [
    "Bongo.to_dot_locks",
    "Bongo.to_dot_poisoned",
    "Bongo.to_dot_no_panics",
    "Bongo.to_dot_debug_among_others",
    "Bongo.to_dot_debug_exact",
    "Bongo.to_dot_after_panics"
   ],
   "note": "Model/DotPanics: to_dot as a sequence of reads; it has no writes, so it changes nothing and poisons nothing. Spec/DotPanics: DebugPanics. Witnesses at the end of Props/DotPanics."
  },
  {
   "property": "C147",
   "status": "proved",
   "theorems": [
    "Bongo.cut_right_exact",
    "Bongo.cut_right_all",
    "Bongo.cut_right_outcome",
    "Bongo.cut_wrong_exact",
    "Bongo.cutTrim_of_trim",
    "Bongo.cut_not_dividesFilled_of_unambiguous",
    "Bongo.cut_ll1null_no_faults",
    "Bongo.Cfg.no_faults_of_fixed"
   ],
   "note": "Spec/RightCut: Cfg.OverlapsFilled, Cfg.DividesFilled, Grammar.CutTrim; Spec/NonNull: cutNull (productions that derive the empty text made empty); Spec/NonNullTree: Solid. C143 is a special case (cutTrim_of_trim). Witness at the end of Props/RightCut: cutExample, with a production A → B that derives the empty text."
  },
  {
   "property": "C148",
   "status": "proved",
   "theorems": [
    "Bongo.nonnull_keys_tell",
    "Bongo.cut_reads_bijOn",
    "Bongo.cut_reads_count",
    "Bongo.nonnull_ambiguous_iff_two_read"
   ],
   "note": "With C100, C145 and C147. Witnesses at the end of Props/CutCount: cutExample, twiceExample."
  },
  {
   "property": "C149",
   "status": "proved",
   "theorems": [
    "Bongo.nonnull_size_exact",
    "Bongo.nonnull_size_le",
    "Bongo.nonnull_elements_le",
    "Bongo.nonnull_parse_work",
    "Bongo.nonnull_parse_work_once"
   ],
   "note": "Spec/WorkNull: emptiable; Spec/Work: the constants. With C32, C102, C142. Witness at the end of Props/WorkNull."
  }
 ]
}