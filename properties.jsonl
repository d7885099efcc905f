{"id": "C01", "title": "Exact outcome of building a grammar", "statement": "grammar::build(start, f) panics exactly when some nonterminal that is reachable from the start symbol (the start symbol included) has no rule. Otherwise it returns Ok exactly when every nonterminal written in any production body is reachable from the start by at least one expansion and every rule has a production; and when it returns Err the three reported sets are exactly: body nonterminals not so reachable, body nonterminals without a rule, heads of rules without productions.", "quantifier": "every start symbol and every finite list of rules (any nonterminals, bodies, duplicates of heads)", "why_tests_cant": "Reachability is a closure over unboundedly deep rule chains; tests only see a few grammars, and none of the repo's tests builds an ill-formed one.", "anchors": ["src/grammar/base.rs: Grammar::new, check_grammar, reachable_nonterms, unreachable_nonterms, nonterminals_without_rules, rules_without_prods", "src/grammar/base/builder.rs: build"]}
{"id": "C02", "title": "Every nonterminal in an accepted grammar can be looked up", "statement": "After build returned Ok, get_rule never panics for the start symbol or for any nonterminal occurring in a production body, and the rule found has that nonterminal as head and at least one production.", "quantifier": "every accepted grammar, every nonterminal occurring in it", "why_tests_cant": "Needs the whole validity check to be right for all grammars.", "anchors": ["src/grammar/base.rs: Grammar::get_rule, try_get_rule, check_grammar"]}
{"id": "C03", "title": "Rules are keyed by head and the last declaration wins", "statement": "For every list of added rules, try_get_rule(nt) is the last added rule with that head (earlier ones are discarded, not merged), rules() lists exactly one rule per declared head in increasing head order, and prods() enumerates exactly the productions of those rules in order.", "quantifier": "every list of rules", "why_tests_cant": "Quantifies over all rule lists and head orders.", "anchors": ["src/grammar/base.rs: Grammar::new, rules, prods, rule_set", "src/grammar/base/builder.rs: GrammarBuilder::add_rule"]}
{"id": "C04", "title": "Every rule of an accepted grammar is reachable from the start", "statement": "If build returns Ok then every rule head is reachable from the start symbol, and a valid start symbol is never itself reported as unreachable.", "quantifier": "every rule list", "why_tests_cant": "A universally quantified claim about the validity check.", "anchors": ["src/grammar/base.rs: unreachable_nonterms, reachable_nonterms", "src/utils.rs: breadth_first_search"]}
{"id": "C05", "title": "The (head, action key) pair identifies a production", "statement": "In an accepted grammar no two productions share the same prod_key().", "quantifier": "every accepted grammar", "why_tests_cant": "Uniqueness over all grammars; the documentation calls the action key unique to its production.", "anchors": ["src/grammar/base.rs: Prod::prod_key, ProdKey", "src/grammar/base/builder.rs: RuleBuilder::add_prod"]}
{"id": "C06", "title": "Builders record exactly what was added, in order", "statement": "The elements of a production built through add_term/add_named_term/add_nonterm/add_named_nonterm are exactly the calls made, in call order, with the given names; productions and rules are recorded in call order.", "quantifier": "every sequence of builder calls", "why_tests_cant": "Sequences are unbounded.", "anchors": ["src/grammar/base/builder.rs: ProductionBuilder, RuleBuilder, GrammarBuilder"]}
{"id": "C07", "title": "Breadth-first search visits exactly the nodes one or more steps away", "statement": "breadth_first_search(init, f) terminates whenever finitely many nodes are reachable and returns exactly the nodes reachable from init in one or more steps (an initial node is included only if it is re-entered).", "quantifier": "every finite-reach graph, every initial set", "why_tests_cant": "Unbounded graphs and paths.", "anchors": ["src/utils.rs: breadth_first_search"]}
{"id": "C08", "title": "CollectMap behaves like a map to sets and reports changes truthfully", "statement": "For every history of insert / insert_iter / insert_from_key_set the map equals the pointwise union of what was inserted, and an operation reports Changed exactly when the set stored under its key gained an element.", "quantifier": "every operation sequence, every key and value", "why_tests_cant": "Histories are unbounded.", "anchors": ["src/utils.rs: CollectMap"]}
{"id": "C09", "title": "Change loops stop only at a state where a pass reports nothing changed", "statement": "change_loop(f) runs f until it reports Unchanged and leaves the state of that last call; change_iter visits every item in order and reports Changed iff some visit did; fixed_point(start, f) returns some x with f(x) = x reached from start by iterating f.", "quantifier": "every step function, every start state", "why_tests_cant": "All functions and run lengths.", "anchors": ["src/utils.rs: change_loop, change_iter, fixed_point, WasChanged"]}
{"id": "C10", "title": "apply_fixed_point computes the closure of its target", "statement": "apply_fixed_point(proc, target) terminates and leaves target closed under proc.next for every processor with bounded merges.", "quantifier": "every processor and every target map", "why_tests_cant": "Termination is not testable.", "anchors": ["src/utils.rs: apply_fixed_point"]}
{"id": "C11", "title": "Grouping helpers group", "statement": "merge_value_pairs(iter) and the LALR helper shuffle_iter map each key to exactly the set of values paired with it, with keys in order and no empty groups; take_only returns Some(v) iff the iterator yields exactly v.", "quantifier": "every finite iterator of pairs", "why_tests_cant": "All inputs.", "anchors": ["src/utils.rs: merge_value_pairs, take_only", "src/parsers/lalr.rs: shuffle_iter"]}
{"id": "C12", "title": "MergableMap merges under equal keys", "statement": "For every sequence of insert and insert_cow calls the map holds, per key, the left-to-right merge of the inserted values; insert and insert_cow (owned or borrowed) are interchangeable, and Changed is reported exactly for a new key or when the value's own merge reports Changed.", "quantifier": "every operation sequence and every Mergable value type", "why_tests_cant": "Histories are unbounded.", "anchors": ["src/utils/mergeables.rs: MergableMap::insert, insert_cow, get_entry"]}
{"id": "C13", "title": "TypeMap is a well-typed heterogeneous map", "statement": "get(k) returns the value most recently inserted (or merged in) under a key of the same type and value, never a value of another key type; the internal downcasts never panic; get_mut updates only that key; merge moves every entry of the other map, which wins on conflicts and ends empty.", "quantifier": "every history of insert/get/get_mut/merge over any family of key types", "why_tests_cant": "Histories and type families are unbounded.", "anchors": ["src/utils/type_map.rs: TypeMap, TypeKeyObjectTrait::cmp_concrete"]}
{"id": "C14", "title": "Modifying a Name never changes another Name", "statement": "make_mut on one Name changes only that Name; every other Name (including clones sharing storage) keeps its string, for every history of new/clone/make_mut/drop.", "quantifier": "every operation history over any number of names", "why_tests_cant": "Aliasing over unbounded histories.", "anchors": ["src/utils.rs: Name"]}
{"id": "C15", "title": "Nullability is exact", "statement": "When the Nullable pass succeeds, is_nullable(nt) holds iff nt derives the empty string, is_prod_nullable(p) holds iff every element of p does, and get_nullable_set is exactly the set of nullable nonterminals.", "quantifier": "every grammar and nonterminal", "why_tests_cant": "Derivations are unbounded.", "anchors": ["src/grammar/passes/nullable/nullables.rs: inner_calculate_nullables, is_prod_nullable", "src/grammar/passes/nullable.rs: Nullable"]}
{"id": "C16", "title": "Nullable ambiguity is reported exactly", "statement": "The Nullable pass returns Err(Ambiguity) iff some nonterminal has two different derivation trees of the empty string.", "quantifier": "every grammar", "why_tests_cant": "Quantifies over all derivation trees.", "anchors": ["src/grammar/passes/nullable/nullables.rs: calculate_nullables, NullableError"]}
{"id": "C17", "title": "The Nullable pass always terminates and never panics", "statement": "calculate_nullables returns Ok or Err for every grammar: neither loop runs forever and no expect/unwrap/assert fails.", "quantifier": "every grammar", "why_tests_cant": "Termination over all inputs.", "anchors": ["src/grammar/passes/nullable/nullables.rs: calculate_nullables, inner_calculate_nullables, get_only"]}
{"id": "C18", "title": "The recorded null tree is the empty derivation", "statement": "When the pass succeeds, get_nullable_action(nt) is Some iff nt is nullable, and the tree's root is the prod key of the unique nullable production of nt, with one parameter per named nonterminal element, holding that nonterminal's own tree.", "quantifier": "every grammar and nullable nonterminal", "why_tests_cant": "Trees are unboundedly deep.", "anchors": ["src/grammar/passes/nullable/nullables.rs: calculate_nullables, get_nullable_action", "src/utils.rs: TreeNode, TreeValue"]}
{"id": "C19", "title": "FIRST sets are exact", "statement": "When the Firsts pass succeeds, t is in get(nt) iff nt derives a sentential form that begins with t.", "quantifier": "every grammar without nullable ambiguity, every nonterminal and terminal", "why_tests_cant": "Derivations are unbounded.", "anchors": ["src/grammar/passes/firsts.rs: Firsts::run_pass"]}
{"id": "C20", "title": "The Firsts pass always terminates, and fails exactly when Nullable fails", "statement": "run_pass returns for every grammar; it is Err iff the Nullable pass is Err; get(nt) is None for a nonterminal exactly when none of its productions begins with an element other than nt itself (reading past nullable self-references).", "quantifier": "every grammar", "why_tests_cant": "Termination and totality over all grammars.", "anchors": ["src/grammar/passes/firsts.rs: Firsts::run_pass, Firsts::get"]}
{"id": "C21", "title": "FOLLOW sets are sound", "statement": "Every terminal recorded by the Follows pass for A can follow A: some rule head derives a sentential form containing A immediately followed by t.", "quantifier": "every grammar for which the pass returns", "why_tests_cant": "Derivations are unbounded.", "anchors": ["src/grammar/passes/follows.rs: Follows::run_pass"]}
{"id": "C22", "title": "FOLLOW sets are complete", "statement": "If some nonterminal with a rule derives a sentential form in which A is immediately followed by terminal t, then t is in the FOLLOW set of A.", "quantifier": "every grammar for which the pass returns", "why_tests_cant": "Derivations are unbounded.", "anchors": ["src/grammar/passes/follows.rs: Follows::run_pass"]}
{"id": "C23", "title": "The Follows pass terminates without panicking", "statement": "run_pass of Follows returns Ok for every grammar whose Nullable pass succeeds.", "quantifier": "every grammar", "why_tests_cant": "All inputs.", "anchors": ["src/grammar/passes/follows.rs: firsts.get(second_nt).unwrap()"]}
{"id": "C24", "title": "A pass result is computed once and then shared", "statement": "Within one PassContext every successful get_pass of the same pass returns the same value, and run_pass of a pass that succeeded is never executed again, whatever other passes depend on it.", "quantifier": "every history of get_pass calls over any dependency structure", "why_tests_cant": "Histories and dependency graphs are unbounded.", "anchors": ["src/grammar/passes/mod.rs: PassContext::get_pass"]}
{"id": "C25", "title": "Cyclic pass dependencies are detected", "statement": "If a pass (transitively) requests itself while running, get_pass panics instead of recursing forever; if the dependency graph is acyclic the panic never fires on a fresh context.", "quantifier": "every finite family of passes and dependency behaviour", "why_tests_cant": "Infinite recursion cannot be observed by a test.", "anchors": ["src/grammar/passes/mod.rs: PassContext::get_pass, NoCurrentValue"]}
{"id": "C26", "title": "A failing pass fails the same way each time", "statement": "If get_pass::<P> returned an error, asking again on the same context returns that error again.", "quantifier": "every context and pass", "why_tests_cant": "History property.", "anchors": ["src/grammar/passes/mod.rs: PassContext::get_pass"]}
{"id": "C27", "title": "Wrapping with a start symbol always succeeds on an accepted grammar", "statement": "wrap_grammar_with_start(g) returns Ok for every grammar accepted by build, start_rule/start_prod never panic on the result, and the start production is Start => start:<s> EOS; every other production is the original one, with the same names, keys, values and order. On a start grammar that was built directly, start_rule panics exactly if Start has no rule, and start_prod exactly if it has none or the rule has other than one production.", "quantifier": "every accepted grammar", "why_tests_cant": "All grammars.", "anchors": ["src/start_grammar.rs: wrap_grammar_with_start, start_rule, start_prod"]}
{"id": "C28", "title": "Wrapping preserves the language", "statement": "The wrapped grammar derives exactly the strings w EOS with w derived by the original grammar, and the wrapped nonterminal of nt derives exactly the (wrapped) strings of nt.", "quantifier": "every accepted grammar, every string", "why_tests_cant": "Languages are infinite.", "anchors": ["src/start_grammar.rs: wrap_grammar_with_start, base_elem_to_start_elem"]}
{"id": "C29", "title": "The non-null transform only derives strings of the original", "statement": "If transform_to_nonnull(g) succeeds, every string derived by the result from nt is a nonempty string derived by g from nt.", "quantifier": "every grammar, nonterminal, string", "why_tests_cant": "Languages are infinite.", "anchors": ["src/grammar/transform/nonnull.rs: transform_to_nonnull, build_nonnull_prods"]}
{"id": "C30", "title": "The non-null transform removes nullability", "statement": "In a successful result no production is empty and no nonterminal derives the empty string.", "quantifier": "every grammar", "why_tests_cant": "Derivations are unbounded.", "anchors": ["src/grammar/transform/nonnull.rs: transform_to_nonnull"]}
{"id": "C31", "title": "The non-null transform keeps every nonempty string", "statement": "If transform_to_nonnull(g) succeeds, every nonempty string derived by g is derived by the result.", "quantifier": "every grammar, string", "why_tests_cant": "Languages are infinite.", "anchors": ["src/grammar/transform/nonnull.rs: transform_to_nonnull (is_prod_nullable skip)"]}
{"id": "C32", "title": "Each transformed production is one null/non-null choice of an original production, tagged with it", "statement": "The transformed productions of a kept production are exactly the 2^k choices for its k nullable nonterminal occurrences: elements keep order and names, the key records the original action key and the choice vector over nonterminals, and the value maps each dropped named element to that nonterminal's null tree; if action keys were unique per rule they stay unique.", "quantifier": "every production of every grammar", "why_tests_cant": "Exponential, unbounded family.", "anchors": ["src/grammar/transform/nonnull.rs: build_nonnull_prods, ActionKey, ActionValue"]}
{"id": "C33", "title": "Alternatives are interned", "statement": "Within one tree, making a leaf or branch alternative with equal content yields an equal Alternative, different content yields a different one, and content()/kind()/value()/action()/nodes() read back exactly what was put in, at any later time.", "quantifier": "every operation history on a tree", "why_tests_cant": "Histories are unbounded.", "anchors": ["src/parsers/tree.rs: AltSet::add, TreeHandle::make_alt, Alternative::content, Leaf, Branch"]}
{"id": "C34", "title": "A node's alternatives are exactly those added", "statement": "alts() of a node is, at every time, the set of alternatives added to it through add_alt or add_all (of the other node's alternatives at that moment); a new node starts empty; add_alt/add_all report Changed iff the set grew; no other operation changes it.", "quantifier": "every operation history", "why_tests_cant": "Histories are unbounded.", "anchors": ["src/parsers/tree.rs: Node::add_alt, add_all, alts, Inner::add_node_alt"]}
{"id": "C35", "title": "Handles obtained from a tree never go stale", "statement": "Every Node/Alternative obtained from a tree stays valid: no operation on it ever panics with an invalid index, and a Leaf/Branch view never finds the other kind.", "quantifier": "every operation history", "why_tests_cant": "Histories are unbounded.", "anchors": ["src/parsers/tree.rs: AltSet::get, Inner::get_node, Leaf::with_leaf, Branch::with_branch"]}
{"id": "C36", "title": "Trees do not mix", "statement": "Combining nodes or alternatives of two different trees panics and leaves both trees unchanged apart from unreachable fresh nodes; operations on one tree never change another.", "quantifier": "every pair of trees and history", "why_tests_cant": "Histories are unbounded.", "anchors": ["src/parsers/tree.rs: make_branch_alt, add_alt, add_all, is_same"]}
{"id": "C37", "title": "The dot export contains the whole forest", "statement": "to_dot's node and edge lists contain the given node and everything reachable from it, and nothing else.", "quantifier": "every forest, including cyclic ones", "why_tests_cant": "Unbounded graphs.", "anchors": ["src/parsers/tree.rs: collect_nodes_and_alts, DotPrinter"]}
{"id": "C38", "title": "Concurrent use of one tree does not deadlock", "statement": "Threads that share one tree and only call its public operations always make progress.", "quantifier": "every schedule of any number of threads", "why_tests_cant": "Schedules.", "anchors": ["src/parsers/tree.rs: TreeHandle::with, with_mut, make_branch_alt, is_same"]}
{"id": "C39", "title": "An accepted input is in the language", "statement": "If parse returns Some, the token kinds are a string of the language of the wrapped grammar's base grammar.", "quantifier": "every grammar, token list, tree state and memory layout", "why_tests_cant": "Infinite languages.", "anchors": ["src/parsers/earley.rs: parse", "src/parsers/earley/state.rs: scan, predict, complete, get_final"]}
{"id": "C40", "title": "A rejected input is not in the language", "statement": "If parse returns None, the token kinds are not a string of the language.", "quantifier": "every grammar, token list, tree state and memory layout", "why_tests_cant": "Infinite languages.", "anchors": ["src/parsers/earley.rs: parse"]}
{"id": "C41", "title": "The parser always terminates", "statement": "parse returns or panics for every input; the closure loop never runs forever, even for cyclic and ambiguous grammars.", "quantifier": "every grammar and token list", "why_tests_cant": "Termination.", "anchors": ["src/parsers/earley.rs: close_state, parse", "src/parsers/earley/state.rs: EarleyStateSet::insert"]}
{"id": "C42", "title": "The parser never panics", "statement": "parse returns Some or None for every grammar accepted by wrap_grammar_with_start and every token list.", "quantifier": "every grammar and token list", "why_tests_cant": "All inputs.", "anchors": ["src/parsers/earley.rs: close_state assert!(!new_state.is_empty())", "src/parsers/earley/state.rs: insert assert_eq!", "src/state.rs: Ord for ProdState"]}
{"id": "C43", "title": "The result does not depend on where productions live in memory", "statement": "Whether parse panics, returns None or returns Some depends only on the grammar and tokens, not on production addresses or the tree's previous contents.", "quantifier": "every layout and previous tree state", "why_tests_cant": "Addresses are not under a test's control.", "anchors": ["src/parsers/earley/state.rs: EarleyStateKey", "src/grammar/base/cmp_wrappers.rs: RefCompare"]}
{"id": "C44", "title": "Every parse tree of the input is in the returned forest", "statement": "If parse returns Some(node), every derivation tree of the base grammar's start symbol whose leaves are the tokens can be read off the forest at node.", "quantifier": "every grammar, token list and derivation tree", "why_tests_cant": "Exponentially or infinitely many trees.", "anchors": ["src/parsers/earley.rs: parse", "src/parsers/earley/state.rs: complete, insert", "src/parsers/tree.rs"]}
{"id": "C45", "title": "Every tree in the returned forest is a derivation tree of the grammar", "statement": "If parse returns Some(node), every finite tree that can be read off the forest at node is a derivation tree of the base grammar's start symbol.", "quantifier": "every grammar, token list, and tree in the forest", "why_tests_cant": "Infinitely many trees.", "anchors": ["src/parsers/earley/state.rs: complete, insert", "src/parsers/tree.rs"]}
{"id": "C46", "title": "Every tree in the returned forest spells the input", "statement": "If parse returns Some(node), every finite tree that can be read off the forest at node has exactly the input tokens as leaves.", "quantifier": "every grammar, token list, and tree in the forest", "why_tests_cant": "Infinitely many trees.", "anchors": ["src/parsers/earley/state.rs: insert (merges children position by position)"]}
{"id": "C47", "title": "Parsing leaves earlier forests alone", "statement": "parse changes no node or alternative that existed in the tree before the call.", "quantifier": "every grammar, token list and earlier tree contents", "why_tests_cant": "Histories are unbounded.", "anchors": ["src/parsers/earley.rs: parse", "src/parsers/tree.rs"]}
{"id": "C48", "title": "A set of production states keeps every state added to it", "statement": "After adding a production state (production and position) to a ProdStateSet, or collecting states into one, complete() and nexts() account for that state.", "quantifier": "every sequence of states", "why_tests_cant": "All sequences.", "anchors": ["src/state.rs: Ord for ProdState, ProdStateSet::add, complete, nexts, from_iter"]}
{"id": "C49", "title": "ProdState positions stay in range and advance through the production", "statement": "Starting from from_start, next_elem_state visits the production's elements in order, is_complete holds exactly at the end, next_elem is None exactly then, and advance_if advances iff the next element equals the argument.", "quantifier": "every production and number of steps", "why_tests_cant": "Unbounded productions.", "anchors": ["src/state.rs: ProdState"]}
{"id": "C50", "title": "take_closure computes the least closed superset", "statement": "take_closure(f) terminates when finitely many states are reachable and leaves exactly the states reachable from the original ones through f (up to production identity).", "quantifier": "every state set and closure function", "why_tests_cant": "Unbounded graphs.", "anchors": ["src/state.rs: ProdStateSet::take_closure"]}
{"id": "C51", "title": "The LALR closure contains an item for every production of every nonterminal after the dot", "statement": "For a state built by from_prod_lookahead, whenever an item has a nonterminal after the dot, every production of it is present at position 0 with the lookaheads determined by what follows.", "quantifier": "every grammar and kernel", "why_tests_cant": "All grammars.", "anchors": ["src/parsers/lalr.rs: ParseState::from_prod_lookahead"]}
{"id": "C52", "title": "LALR shift actions move the dot over the token", "statement": "shift_actions lists exactly the terminals that occur after a dot in the state, each with the closure of the advanced items and their lookaheads.", "quantifier": "every state", "why_tests_cant": "All states.", "anchors": ["src/parsers/lalr.rs: ParseState::shift_actions, reducable_actions, shuffle_iter"]}
{"id": "C53", "title": "A vector token stream yields its tokens in order", "statement": "VecTokenStream::from_into_iter(ts) followed by repeated next() yields exactly ts and then None.", "quantifier": "every token list", "why_tests_cant": "All lists.", "anchors": ["src/parsers/mod.rs: VecTokenStream::next"]}
{"id": "C54", "title": "Reading a buffer range yields its characters", "statement": "Repeated read_char / read_char_mut on a range yields exactly the characters of as_str() in order and then None; each read leaves the remaining text, and byte_len is the UTF-8 length of as_str().", "quantifier": "every text and every number of reads", "why_tests_cant": "All texts, multi-byte characters included.", "anchors": ["src/utils/buffer.rs: BufferRange::new, read_char, read_char_mut, as_str, byte_len, empty"]}
{"id": "C55", "title": "advance_n takes exactly n characters or nothing", "statement": "advance_n(n)/advance_n_mut(n) return Some(s) with s the first n characters and the range starting after them iff at least n characters remain; otherwise None and the range is unchanged.", "quantifier": "every range and n", "why_tests_cant": "All texts and counts.", "anchors": ["src/utils/buffer.rs: advance_n, advance_n_mut"]}
{"id": "C56", "title": "remove_suffix splits the text", "statement": "If suffix was obtained from self by reading, self.remove_suffix(suffix) never panics and its text followed by suffix's text is self's text; it panics on ranges of other buffers, other ends, or earlier starts.", "quantifier": "every range and suffix", "why_tests_cant": "All texts.", "anchors": ["src/utils/buffer.rs: remove_suffix"]}
{"id": "C57", "title": "Buffer operations never slice inside a character", "statement": "No sequence of API calls on ranges obtained from BufferRange::new makes as_str, advance_n, start_pos or end_pos panic on a character boundary or index.", "quantifier": "every text and every history of operations", "why_tests_cant": "Histories are unbounded.", "anchors": ["src/utils/buffer.rs: as_str, get_line_str_from_byte_offset"]}
{"id": "C58", "title": "Line numbers count line terminators", "statement": "start_pos().line / end_pos().line is the number of line terminators (LF, CR, or CRLF counted once) that end at or before that offset.", "quantifier": "every text and offset", "why_tests_cant": "All texts.", "anchors": ["src/utils/buffer.rs: BufferRange::new line_ranges, get_line_str_from_byte_offset"]}
{"id": "C59", "title": "Columns count graphemes from the line start", "statement": "The column of a position is the number of grapheme clusters of its line (terminator excluded) that start before the position, the position being clamped to the line's end.", "quantifier": "every text, offset and grapheme segmentation", "why_tests_cant": "All texts.", "anchors": ["src/utils/buffer.rs: get_text_pos_from_byte_offset"]}
{"id": "C60", "title": "transform_to_nonnull always returns, with an exact success condition", "statement": "transform_to_nonnull returns for every accepted grammar (no panic, no divergence). It fails exactly when the nullable pass fails, or when some rule would keep no production or some kept nonterminal becomes unreachable once the productions that can derive the empty string are removed.", "quantifier": "every accepted grammar", "why_tests_cant": "All grammars; the failure condition is a reachability property.", "anchors": ["src/grammar/transform/nonnull.rs: transform_to_nonnull, build_nonnull_prods"]}
{"id": "C61", "title": "A BufferRangeKey is its text", "statement": "Comparing two BufferRangeKeys never panics and depends only on the texts of the two ranges: they are equal iff the texts are, wherever in whichever buffer they lie.", "quantifier": "every two ranges of any buffers", "why_tests_cant": "All texts and ranges.", "anchors": ["src/utils/buffer.rs: BufferRangeKey::cmp, eq"]}
{"id": "C62", "title": "Concurrent calls on trees take effect one at a time", "statement": "However the calls of several threads on shared trees interleave, the memory and the results are those of the same calls made one after the other in the order in which they finish.", "quantifier": "every interleaving of any number of threads and calls", "why_tests_cant": "Schedules.", "anchors": ["src/parsers/tree.rs: TreeHandle::with, with_mut and all public operations"]}
{"id": "C63", "title": "Equality of LALR states", "statement": "Two states compare equal iff they have the same items (production and position) with the same lookaheads.", "quantifier": "every pair of states a program can build", "why_tests_cant": "All pairs of states of all grammars.", "anchors": ["src/parsers/lalr.rs: ParseState (Ord, Eq)", "src/state.rs: ProdState (Ord, Eq)"]}
{"id": "C64", "title": "A parse is a sequence of public tree calls on the given tree", "statement": "A call of parse that returns changes the trees exactly as some sequence of successful calls of the public tree operations on the tree it was given would, and the node it returns is one that sequence obtained; so every guarantee about trees holds for programs that parse.", "quantifier": "every grammar, input and earlier history of tree calls", "why_tests_cant": "All histories of trees, grammars and inputs.", "anchors": ["src/parsers/earley.rs: parse", "src/parsers/earley/state.rs: TreeValue, TreesSet, EarleyKind", "src/parsers/tree.rs: Tree, Node, Alt"]}
{"id": "C65", "title": "A forest returned by a parse reads the same after later parses", "statement": "The trees that can be read off a node obtained before a call of parse (by an earlier call of parse or otherwise) are the same after the call, also if both calls use the same tree and different grammars.", "quantifier": "every history, any two grammars and inputs", "why_tests_cant": "All histories, and all (possibly infinitely many) trees of a forest.", "anchors": ["src/parsers/earley.rs: parse", "src/parsers/tree.rs: Node::make_branch_node, add_alt, alts"]}
{"id": "C66", "title": "Exact content of Follows", "statement": "Follows lists t for A iff t can be reached by these two rules: A stands directly before an element that can begin with t; or A ends a production of a nonterminal for which t is listed.", "quantifier": "every accepted grammar on which the pass succeeds", "why_tests_cant": "All grammars; derivations of any length.", "anchors": ["src/grammar/passes/follows.rs: Follows"]}
{"id": "C67", "title": "Exact outcome of the Follows pass", "statement": "The Follows pass always ends; it returns the Nullable pass's error if that fails; otherwise it panics iff some production has adjacent nonterminals X Y where Y has no FIRST entry (no production of Y has an element other than Y after nullable Ys), and else succeeds.", "quantifier": "every accepted grammar", "why_tests_cant": "All grammars.", "anchors": ["src/grammar/passes/follows.rs: Follows"]}
{"id": "C68", "title": "Exact outcome of parse", "statement": "parse always ends. If every prefix of the input can begin a sentence and none has a production that can stand at two positions after it, parse returns, with a node iff the input is in the language. Otherwise it panics, at the first bad prefix: with the empty-state assertion if the prefix cannot begin a sentence, with the length assertion if it has the clash.", "quantifier": "every accepted grammar, token list and history of trees", "why_tests_cant": "All grammars and inputs; the condition is semantic.", "anchors": ["src/parsers/earley.rs: parse", "src/parsers/earley/state.rs"]}
{"id": "C69", "title": "For unambiguous grammars the returned forest holds only trees of the input", "statement": "If no string has two derivation trees from the start symbol, and every nonterminal occurs in a derivation of a sentence, every tree read off the returned node has the input tokens, with their values, as leaves.", "quantifier": "every such grammar and every input on which parse returns a node", "why_tests_cant": "All grammars, inputs and trees.", "anchors": ["src/parsers/earley.rs: parse", "src/parsers/earley/state.rs"]}
{"id": "C70", "title": "Exact language of the non-null transform", "statement": "A nonterminal of the transformed grammar generates exactly the nonempty strings it generates in the grammar obtained from the original by replacing every production that can derive the empty string by an empty production.", "quantifier": "every accepted grammar on which the transform succeeds, every nonterminal and string", "why_tests_cant": "All grammars, strings and derivations.", "anchors": ["src/grammar/transform/nonnull.rs: transform_to_nonnull, build_nonnull_prods"]}
{"id": "C71", "title": "Exact content of the dot export", "statement": "to_dot returns and lists, each once, exactly the nodes and alternatives that are one or more arrows away from the given node, and exactly the arrows that leave them.", "quantifier": "every history of tree operations and every node (forests may be cyclic)", "why_tests_cant": "All forests.", "anchors": ["src/parsers/tree.rs: to_dot, DotGraph"]}
{"id": "C72", "title": "Exact effect of adding to a set of production states", "statement": "Adding a state to a ProdStateSet adds it iff the set has no state of the same production, and changes nothing else; complete() lists exactly the complete states, nexts() exactly the elements after the dots, in order, each with exactly the advanced states.", "quantifier": "every set a program can build and every state", "why_tests_cant": "All sets and histories.", "anchors": ["src/state.rs: ProdStateSet::add, nexts, complete"]}
{"id": "C73", "title": "Exact content and outcome of LALR states", "statement": "from_prod_lookahead always ends. It returns the Nullable error if that pass fails, panics iff a FIRST set it needs is missing, and otherwise returns the state whose items and lookaheads are exactly those derivable by: an item of the kernel; a lookahead of the kernel; for an item with nonterminal B after the dot, every production of B not already an item at another position, with the lookaheads that can begin what follows B, or the item's own if nothing follows.", "quantifier": "every accepted grammar and every kernel", "why_tests_cant": "All grammars; unbounded closure.", "anchors": ["src/parsers/lalr.rs: ParseState::from_prod_lookahead"]}
{"id": "C74", "title": "Exact meaning of equality of LALR states", "statement": "Two states compare equal iff they have the same productions with the same lookaheads (positions are not compared).", "quantifier": "every pair of states a program can build", "why_tests_cant": "All pairs of states.", "anchors": ["src/parsers/lalr.rs: ParseState (Ord, Eq)", "src/state.rs: ProdState (Ord, Eq)"]}
{"id": "C75", "title": "Exact outcome of asking for a pass", "statement": "If pass bodies propagate errors, the first request on a fresh context returns r iff evaluating the pass and its dependencies from scratch yields r (and panics or diverges iff there is no such r). After a pass has failed, every later request for it panics.", "quantifier": "every set of passes and every history of requests", "why_tests_cant": "All pass programs and histories.", "anchors": ["src/grammar/passes/mod.rs: PassContext::get_pass"]}
{"id": "C76", "title": "Exact outcome of apply_fixed_point", "statement": "apply_fixed_point returns iff the target is empty, leaving it empty, and never returns otherwise.", "quantifier": "every processor and target", "why_tests_cant": "Non-termination cannot be tested.", "anchors": ["src/utils.rs: apply_fixed_point"]}
{"id": "C77", "title": "Exact outcome of VecTokenStream::next", "statement": "The first next on a stream made from a list returns None if the list is empty and panics otherwise; no call ever returns a token.", "quantifier": "every list of tokens and every number of calls", "why_tests_cant": "All lists.", "anchors": ["src/parsers/mod.rs: VecTokenStream"]}
{"id": "C78", "title": "Exactly which rules of an accepted grammar are reachable", "statement": "In an accepted grammar a rule is reachable from the start symbol iff it is the start symbol's or its head is written in some production.", "quantifier": "every accepted grammar and rule", "why_tests_cant": "All grammars.", "anchors": ["src/grammar/base.rs: check_grammar", "src/grammar/base/builder.rs"]}
{"id": "C79", "title": "Exactly when the production key identifies the production", "statement": "In an accepted grammar no two productions have the same (head, action key) iff the action keys within each rule are distinct.", "quantifier": "every accepted grammar", "why_tests_cant": "All grammars.", "anchors": ["src/grammar/base.rs: Prod::prod_key", "src/grammar/base/builder.rs"]}
{"id": "C80", "title": "When calls on trees cannot deadlock", "statement": "Unless an iterator passed to a tree call itself uses the tree: if readers are admitted whenever no writer holds the lock, threads making tree calls can always go on; if waiting writers go first, this still holds for calls that take one lock at a time, and for a single thread; and only finitely many steps can be taken.", "quantifier": "every number of threads, calls and interleavings", "why_tests_cant": "Schedules.", "anchors": ["src/parsers/tree.rs: TreeHandle::with, with_mut and all public operations"]}
{"id": "C81", "title": "Comparing rules: a total order within a grammar, a panic across grammars", "statement": "Comparing two rules of one grammar never panics and is a total order in which rules are equal iff they have the same head; comparing rules of two grammar objects (even a grammar and its clone) always panics.", "quantifier": "every collection of grammars in memory, every placement of their parts, every two rules", "why_tests_cant": "All grammars and memory layouts.", "anchors": ["src/grammar/base.rs: Rule (PartialEq, Ord)", "src/grammar/base/cmp_wrappers.rs: ParentRef, RefCompare"]}
{"id": "C82", "title": "Comparing productions: identity, also across grammars; rule_set", "statement": "Comparing two productions never panics and is a total order in which two productions are equal iff they are the same production of the same grammar object. rule_set() lists the rules by head in order and agrees with try_get_rule.", "quantifier": "every collection of grammars in memory, every placement, every two productions", "why_tests_cant": "All grammars and memory layouts.", "anchors": ["src/grammar/base.rs: Prod (PartialEq, Ord), Grammar::rule_set", "src/grammar/base/cmp_wrappers.rs: RefCompare"]}
{"id": "C83", "title": "Exact meaning of equality of sets of production states", "statement": "Two ProdStateSets are equal (by == and by cmp) iff they have states of the same productions; positions are not compared.", "quantifier": "every two sets a program can build", "why_tests_cant": "All sets and histories.", "anchors": ["src/state.rs: ProdStateSet (PartialEq, Ord)"]}
{"id": "C84", "title": "Orders of elements are lawful", "statement": "The orders of Elem and ProdElement are total orders that agree with equality: terminals before nonterminals, unnamed before named elements, then by name and content.", "quantifier": "all elements over any lawfully ordered symbols", "why_tests_cant": "All triples of elements.", "anchors": ["src/grammar/base.rs: Elem, ProdElement (Ord)"]}
{"id": "C85", "title": "Children chosen independently are in the forest", "statement": "Every tree over the input whose nodes' children are chosen independently of each other (each from some division of the node's tokens among the elements of the production) can be read off the node that parse returns; derivation trees of the input are among them.", "quantifier": "every accepted grammar, memory layout, history of tree use, token sequence and tree", "why_tests_cant": "All grammars, inputs and trees.", "anchors": ["src/parsers/earley.rs: parse", "src/parsers/tree.rs: TreeHandle"]}
{"id": "C86", "title": "An upper bound of the forest", "statement": "Every tree that can be read off the node parse returns is put together over tokens of the input like a derivation tree, except that each child need only begin where its element can begin, and only the last child must end where the node ends.", "quantifier": "every accepted grammar, memory layout, history of tree use, token sequence and tree read", "why_tests_cant": "All grammars, inputs and trees.", "anchors": ["src/parsers/earley.rs: parse", "src/parsers/tree.rs: TreeHandle"]}
{"id": "C87", "title": "The forest does not depend on memory layout", "statement": "Parsing the same input with the same grammar twice, with the productions at other places in memory and other trees and histories, gives nodes off which the same trees can be read.", "quantifier": "every accepted grammar, pair of memory layouts, pair of histories, token sequence", "why_tests_cant": "Memory layouts and histories.", "anchors": ["src/parsers/earley.rs: parse"]}
{"id": "C88", "title": "Parsing in a tree that other threads use", "statement": "A parse in a tree that other threads read and write at the same time returns a node, returns nothing or panics exactly as it does alone, and the same trees can be read off the node it returns; in particular it still returns a node exactly for inputs of the language.", "quantifier": "every grammar, memory layout, history of tree use, token sequence and schedule of tree calls of other threads between the calls of the parser", "why_tests_cant": "All interleavings of unboundedly many calls.", "anchors": ["src/parsers/earley.rs: parse", "src/parsers/tree.rs: TreeHandle, Node"]}
{"id": "C89", "title": "A parse is invisible to the other users of the tree, also when it is abandoned", "statement": "At every point of a parse (so also when it panics half way or its thread never runs again) the tree is in a state in which the calls of all other threads succeed, and no step of the parser changes the result of any reading or merging call other threads can make with handles they have.", "quantifier": "every grammar, history of tree use, token sequence, schedule and crash point", "why_tests_cant": "All schedules and crash points.", "anchors": ["src/parsers/earley.rs: parse", "src/parsers/tree.rs: TreeHandle, Node"]}
{"id": "C90", "title": "Other threads cannot keep a parse from finishing", "statement": "Whatever other threads do to the tree, a parse makes exactly as many tree calls as it makes alone, and each of them succeeds.", "quantifier": "every grammar, history of tree use, token sequence and schedule", "why_tests_cant": "All schedules.", "anchors": ["src/parsers/earley.rs: parse", "src/parsers/tree.rs: TreeHandle, Node"]}
{"id": "C91", "title": "The accessors report what was declared", "statement": "The productions of a built grammar are exactly the ones declared, and every accessor of a production (keys, values, elements, element_at, prod_element_at, first_elem, num_elements) reports what was declared for it; positions past the end give None. The terminals and nonterminals listed are the ones written in the productions.", "quantifier": "every sequence of builder calls that builds a grammar, every production and position", "why_tests_cant": "All grammars and positions.", "anchors": ["src/grammar/base.rs: Prod, Grammar::get_elements, get_terminals, get_nonterminals"]}
{"id": "C92", "title": "Printing shows the whole grammar", "statement": "to_pretty prints the start symbol, then every rule in the order of the heads, with every production and element (names, nonterminals in angle brackets, an empty production as an epsilon); however lines are broken, the text is this listing up to blanks and line breaks. The wrapped grammar is printed as the grammar with the start rule in front.", "quantifier": "every grammar over symbols that print as words; every choice of line breaks", "why_tests_cant": "All grammars and layouts.", "anchors": ["src/grammar/base.rs: Grammar::to_pretty, ToDoc implementations", "src/grammar/base/element_types.rs: Terminal, NonTerminal", "src/start_grammar.rs: ToDoc implementations"]}
{"id": "C93", "title": "The printed text determines the grammar, except for the actions", "statement": "If two grammars whose names contain no blanks and no punctuation of the printed form can print as the same text, they have the same start symbol, rules, productions and element names; and the text does not depend on action keys and values.", "quantifier": "every two grammars with such names, every choice of line breaks for each", "why_tests_cant": "All pairs of grammars and layouts.", "anchors": ["src/grammar/base.rs: Grammar::to_pretty, ToDoc implementations"]}
{"id": "C94", "title": "The example grammars and programs", "statement": "Building the crate's example grammars never panics, and each generates the language its source suggests. For every input: make_simple parses A and B, answers None for the empty input and panics on the rest; the grammar of examples/simple_earley.rs parses exactly the nested words, answers None on their proper prefixes and panics on the rest; make_paren answers None for the empty input and panics on every other input, also on balanced words; the nullable grammars and the one of examples/ambiguous_earley.rs panic on every input. So examples/simple_earley.rs ends with a tree and examples/ambiguous_earley.rs panics.", "quantifier": "every input, every earlier history of the tree, every layout of the grammar in memory", "why_tests_cant": "All inputs and layouts.", "anchors": ["src/grammar/examples.rs", "examples/simple_earley.rs", "examples/ambiguous_earley.rs"]}
{"id": "C95", "title": "One tree for unambiguous grammars", "statement": "If no word has two derivation trees, and every nonterminal that is used derives something, then exactly one tree can be read off the node that parse returns: the derivation tree of the input, its nodes labelled with the action keys.", "quantifier": "every unambiguous grammar and accepted input, every earlier history of the tree", "why_tests_cant": "All grammars and inputs.", "anchors": ["src/parsers/earley.rs: parse", "src/parsers/tree.rs"]}
{"id": "C96", "title": "Outcomes of parse when no production can be at two positions at once", "statement": "For a grammar in which, after any input, no production started at one point can be at two positions, and whose nonterminals all derive something: parse returns a node on words of the language, None on their other prefixes, and panics on inputs that begin no word.", "quantifier": "every such grammar, every input, every earlier history of the tree", "why_tests_cant": "All grammars and inputs.", "anchors": ["src/parsers/earley.rs: parse"]}
{"id": "C97", "title": "A start symbol that derives the empty word makes every parse panic", "statement": "If the empty word is in the language of the grammar, parse panics on every input.", "quantifier": "every such grammar, every input, every earlier history of the tree", "why_tests_cant": "All grammars and inputs.", "anchors": ["src/parsers/earley.rs: parse"]}
{"id": "C98", "title": "The drawing made by to_dot", "statement": "to_dot on a node that a program holds never panics. It draws, once each, exactly the nodes and alternatives that can be reached from the node in one or more steps: nodes as points, branches as boxes labelled with their action, leaves as boxes labelled kind(value). Different things have different names, which the dot language allows. The edges that leave a thing are its alternatives or its children, in order and with repetitions.", "quantifier": "every history of calls on trees, every node held, all Debug implementations", "why_tests_cant": "All histories and nodes, including cyclic forests.", "anchors": ["src/parsers/tree.rs: Node::to_dot, DotPrinter, collect_nodes_and_alts"]}
{"id": "C99", "title": "Any number of parses in shared trees", "statement": "Let any number of threads run parse, each with its own grammar and input, in trees they share with each other and with user threads, which may also use the nodes that finished parses returned. At every point of every schedule, each parse has returned or panicked only as it does alone in the memory it began with, its result shows the same trees, its next call succeeds, and it has made no more tree calls than it makes alone; so it returns a node exactly for the inputs of its language. Users never see a step of a running parse in the results of their calls, and everything that holds after a history of calls holds for them, also when parses are abandoned.", "quantifier": "every number of threads, every schedule of their calls, all grammars and inputs, all calls of the users", "why_tests_cant": "All schedules of any number of threads.", "anchors": ["src/parsers/earley.rs: parse", "src/parsers/tree.rs: TreeHandle, Node"]}
{"id": "C100", "title": "The trees of the non-null grammar stand for trees of the original", "statement": "Every derivation tree of the result of transform_to_nonnull corresponds to a derivation tree of the original grammar with the same yield: each node has the same head, action and value, and exactly the nonterminals that the node's action key lists as null get an empty tree. Different trees correspond to different trees, and all trees of the original with a nonempty yield in which no vanishing production derives something are reached. So the transform makes no ambiguities and no dead ends, and parsing with the result of an unambiguous grammar finds the one derivation tree of the input.", "quantifier": "every grammar on which the transform succeeds, every derivation tree, every input", "why_tests_cant": "All grammars and trees.", "anchors": ["src/grammar/transform/nonnull.rs: transform_to_nonnull, ActionKey", "src/parsers/earley.rs: parse"]}
{"id": "C101", "title": "The trees of the wrapped grammar", "statement": "wrap_grammar_with_start keeps the derivation trees: those of an original nonterminal are the same, those of the new start symbol are a tree of the original start symbol followed by the end of the stream, and different trees stay different. So wrapping neither makes nor removes ambiguities.", "quantifier": "every grammar and every derivation tree", "why_tests_cant": "All grammars and trees.", "anchors": ["src/start_grammar.rs: wrap_grammar_with_start"]}
{"id": "C102", "title": "What a parse costs", "statement": "The number of calls that parse makes on its tree does not depend on what trees hold, and is at most C*(n+1)^6 for n tokens, where C depends only on the number of productions of the grammar and the length of the longest. This holds in every schedule with other threads. No closing loop makes more than D*(n+1)^3 passes, and the number of nodes and alternatives made is bounded like the calls.", "quantifier": "every grammar, every input of any length, every earlier history of the tree, every schedule", "why_tests_cant": "All grammars and inputs: a bound on the growth of costs is a statement about infinitely many inputs.", "anchors": ["src/parsers/earley.rs: parse", "src/parsers/earley/state.rs", "src/parsers/tree.rs: TreeHandle"]}
{"id": "C103", "title": "What Debug shows of a grammar", "statement": "The Debug text of a grammar, {:?} or {:#?}, is the same for grammars with the same rules: it shows no actions and not the start symbol. If the names contain none of the characters with a meaning in the text, it determines the rules: heads, productions in order, elements in order and their names. {:#?} shows the same as {:?}, up to blanks, line breaks and commas before closing brackets.", "quantifier": "all grammars with plain names, both formats, all types of symbols whose own Debug can be read back", "why_tests_cant": "All grammars and names.", "anchors": ["src/grammar/base.rs: Debug for Grammar, Rule, Prod, ProdElement, Elem", "src/grammar/base/element_types.rs", "src/utils.rs: Debug for Name"]}
{"id": "C104", "title": "What Debug shows of states and errors", "statement": "The Debug text of a production state determines the head, the elements and the position, that of an Earley state also the origin and the number of nodes, and both show nothing else (so states that are equal, at different positions, print differently). The Debug text of the errors of build determines the three sets.", "quantifier": "all states and error values with plain names, both formats", "why_tests_cant": "All states and names.", "anchors": ["src/state.rs: Debug for ProdState", "src/parsers/earley/state.rs: Debug for EarleyState", "src/grammar/base.rs: GrammarErrors", "src/utils/fmt.rs"]}
{"id": "C105", "title": "Strings are compared, measured and cut by their bytes", "statement": "Names, and BufferRangeKeys by their text, are ordered by their UTF-8 bytes, which is a total order that agrees with equality and with the order of the characters; a key and a Name made of its text compare alike. The text of a range is the bytes of the buffer between its offsets, byte_len is their number, and the offsets never lie inside a character; slicing at other offsets would panic.", "quantifier": "all strings, all ranges obtained from any buffers", "why_tests_cant": "All strings of all characters of one to four bytes.", "anchors": ["src/utils.rs: Name (derived Ord)", "src/utils/buffer.rs: BufferRangeKey::cmp, BufferRange::as_str, byte_len"]}
{"id": "C106", "title": "How many rounds the analyses take", "statement": "Whatever the grammar, no loop of the Nullable, First or Follow passes goes round more often than there are rules, plus two; for Nullable there are grammars with any number of rules that need exactly that. The closure of an LALR state takes at most twice as many rounds as there are productions, plus one, and the search of build for reachable nonterminals one more than there are nonterminals in bodies. With that many rounds every one of them has returned or panicked.", "quantifier": "every grammar, every memory layout, every LALR kernel", "why_tests_cant": "All grammars: a bound in the size of the grammar is a statement about infinitely many grammars.", "anchors": ["src/grammar/passes/nullable/nullables.rs: calculate_nullables", "src/grammar/passes/firsts.rs", "src/grammar/passes/follows.rs", "src/parsers/lalr.rs: from_prod_lookahead", "src/utils.rs: change_loop, breadth_first_search", "src/grammar/base.rs: check_grammar"]}
{"id": "C107", "title": "Grammars on which parse can be relied on", "statement": "If no production is empty and a nonterminal followed by something in a production never generates both a word and a longer word beginning with it, then parse returns, for every word of the language, a node from which exactly the derivation trees of the input can be read; it returns None if the input begins something the grammar derives, and panics otherwise. This covers all grammars with nonterminals only at the ends of productions, ambiguous or not, and all grammars without empty productions in which two productions of a nonterminal never begin with the same terminal; for the latter there is exactly one tree, and the condition can be checked with the FIRST sets the crate computes.", "quantifier": "every such grammar, every input, every earlier history of the tree, every memory layout", "why_tests_cant": "All grammars of a class and all inputs.", "anchors": ["src/parsers/earley.rs: parse", "src/parsers/earley/state.rs: merge", "src/grammar/passes/firsts.rs: Firsts"]}
{"id": "C108", "title": "Walking down the returned forest", "statement": "A program that starts at the node parse returned and goes on from nodes to their alternatives and from branches to their nodes comes to an end, however it goes, if the input has finitely many derivation trees (and every input has, if no nonterminal derives itself in one or more steps). It does not if the input has infinitely many. In every forest parse returns, all walks end exactly if finitely many trees can be read off.", "quantifier": "every accepted grammar, every input, every walk, every memory layout", "why_tests_cant": "All walks through forests of any size, and the result depends on where the productions are in memory.", "anchors": ["src/parsers/earley.rs: parse", "src/parsers/earley/state.rs: EarleyStateSet::insert", "src/parsers/tree.rs: Node::alts, Alternative::content, Branch::nodes, Node::add_all"]}
{"id": "C109", "title": "User functions with effects are asked each question once", "statement": "breadth_first_search, take_closure and fixed_point take functions that may keep state, answer differently the next time and panic. A search that returns has asked about each initial item once, in increasing order, then about each item of its answer once, and its answer is what occurred in the function's answers. take_closure asks about each state of its result exactly once, the original ones first. fixed_point applies the function to its own answers until an application first gives its argument back. All three panic exactly where the function does, having asked nothing twice (beyond initial items that are met again), and take_closure then leaves the set unchanged. If the function always returns and stays within a finite collection, so do they, whatever the effects. Effects that do not change the answers do not change the result.", "quantifier": "every function with every kind of state, every initial set, every grammar", "why_tests_cant": "All functions, including ones whose answers depend on everything asked before: no test suite ranges over them.", "anchors": ["src/utils.rs: breadth_first_search, fixed_point", "src/state.rs: ProdStateSet::take_closure"]}
{"id": "C110", "title": "The text written by the formatting helpers", "statement": "list_fmt, set_fmt, tuple_fmt and struct_fmt write, with {:?}, the texts of the items on one line between the brackets, separated by a comma and a blank, and with {:#?} each item with a comma on lines of its own, every line of it indented by four blanks; tuples and structs without items are only their name, and a tuple without a name and with one item is written with a comma. A set of Earley states is written in this way, in the order in which it is iterated.", "quantifier": "all items and names, whatever the texts of the items (including line breaks in them), both formats", "why_tests_cant": "All values, nesting depths and texts.", "anchors": ["src/utils/fmt.rs: list_fmt, set_fmt, tuple_fmt, struct_fmt", "src/parsers/earley/state.rs: Debug for EarleyStateSet"]}
{"id": "C111", "title": "Looking ahead in a production, on machine integers", "statement": "offset_elem(i) and offset_prod_elem(i) give the i-th element after the position of a production state, or None if there is none, for every usize i; and reading on (next_elem, next_elem_state, advance_if, and next of token streams) never overflows.", "quantifier": "every production that fits into memory, every position, every usize i, machines of every word size, builds with and without overflow checks", "why_tests_cant": "All of 2^64 offsets at all positions of all productions.", "anchors": ["src/state.rs: ProdState::offset_prod_elem, offset_elem, next_elem_state, advance_if", "src/parsers/mod.rs: VecTokenStream::next"]}
{"id": "C112", "title": "The orders of the library's types are lawful", "statement": "Whatever lawful orders the user's types have, the orders of production keys, of the symbols and keys of wrapped grammars, of the keys of the non-null transform, of WasChanged, of the handles of trees and of trees of values (TreeValue, TreeNode, of any depth) are total orders that agree with ==, namely: by head and then by action; the new symbol or key first, and then in the order of the grammar; by action and then by the choices; Changed first (so join is the minimum); by index and then by tree, leaves before branches; nodes before leaves, nodes by action and then by the first parameter that differs. So handles are equal exactly if they denote the same thing of the same tree, and wrapped and transformed grammars can be wrapped and transformed again.", "quantifier": "all values, trees of any size and depth, all lawful orders of the user's types", "why_tests_cant": "All values of recursive types over arbitrary user types.", "anchors": ["src/grammar/base.rs: ProdKey", "src/start_grammar.rs: StreamTerminal, StartNonTerminal, StartActionKey", "src/grammar/transform/nonnull.rs: ActionKey", "src/utils.rs: TreeValue, TreeNode, WasChanged", "src/parsers/tree.rs: TreeHandle, Node, Alternative, Leaf, Branch, NodeContent"]}
{"id": "C113", "title": "Names as hash keys", "statement": "Equal names feed the same bytes to a hasher, wherever they are allocated, and what a sequence of names feeds determines the names (so \"a\", \"b\" and \"ab\", \"\" differ). Terminals and nonterminals hash as their names. make_mut changes the hash of no other name, clones included.", "quantifier": "all names, all sequences of names, all histories of new, clone, make_mut and drop", "why_tests_cant": "All strings and histories.", "anchors": ["src/utils.rs: Name (derived Hash, Eq), Name::make_mut, WasChanged", "src/grammar/base/element_types.rs: Terminal, NonTerminal"]}
{"id": "C114", "title": "Transforming again, and transforming wrapped grammars", "statement": "Where no nonterminal derives the empty word, transform_to_nonnull succeeds and returns the same grammar with tagged keys and values: the same start symbol, rules and productions in the same order, every key recording that no nonterminal is null. So transforming a transformed grammar again only tags it. Wrapping a grammar and then transforming it succeeds wherever transforming the grammar does (exactly: wherever its nullables can be computed, each rule has a production that does not derive the empty word, and what is mentioned in such productions is the start symbol or is reachable from it through such productions), and the language of the result is what transforming the grammar keeps, and the empty word if the grammar derives it, each followed by the end of stream. Wrapping first and transforming first give different grammars.", "quantifier": "every accepted grammar, every placement of its rules in memory, every word", "why_tests_cant": "All grammars; needs the translation of derivations through two transformations.", "anchors": ["src/grammar/transform/nonnull.rs: transform_to_nonnull, build_nonnull_prods", "src/start_grammar.rs: wrap_grammar_with_start"]}
{"id": "C115", "title": "Collecting production states", "statement": "Collecting production states into a set keeps exactly one state of each production: with current versions of the standard library the last one collected, with versions that insert one item after the other the first one, which is also what adding them one by one keeps; so collecting and adding can give sets that report different complete states. Collecting items whose order agrees with == gives the same set or map in all versions.", "quantifier": "all lists of states of an accepted grammar, all placements of productions in memory, both implementations of FromIterator in std, all total preorders", "why_tests_cant": "All lists of items, of any length, and both implementations.", "anchors": ["src/state.rs: FromIterator for ProdStateSet, ProdStateSet::add, Ord for ProdState", "src/parsers/lalr.rs: ParseState::from_prod_lookahead"]}
{"id": "C116", "title": "parse on start grammars that were not made by wrapping", "statement": "StartGrammar is a type name, so parse also takes grammars over the stream terminals that were built directly. On every such grammar parse returns or panics. It panics exactly if some prefix of the input cannot be continued, leaves a production at two positions, or completes an awaited production with the start action, or if all prefixes are good but the first production in memory that stands before an end of stream after the input has other than one element in front of it. Otherwise it returns Some exactly if the end of stream can follow the input, and the trees that can be read off the node are derivation trees of the one element in front of the end of stream, among them every one that spells the tokens since that production was started. Some does not mean that the input is a sentence (what comes after the end of stream is not looked at), and which production is first, so which trees are read, depends on the placement in memory.", "quantifier": "every grammar over stream terminals accepted by build, every placement in memory, every input, every history of tree calls before", "why_tests_cant": "All grammars and inputs; needs the meaning of all Earley states.", "anchors": ["src/parsers/earley.rs: parse", "src/parsers/earley/state.rs: EarleyStateSet, EarleyStateKey", "src/start_grammar.rs: StartGrammar, StartActionKey::as_base"]}
{"id": "C117", "title": "Panics of the user's functions inside calls on trees", "statement": "Comparisons of token kinds, values and action keys, Clone of kinds and keys, and the iterator given to make_branch_alt run while a tree is locked. If one panics, the panic has no effect but this: a comparison that panics leaves its tree poisoned. Exactly these trees are poisoned; every later call that locks one panics and changes nothing. All other calls, before and after, return what they would if the panicking calls had not been made, and the trees that are not poisoned are as if they had not been made. parse uses no tree but its own: it ends as ever, or finds its tree poisoned and changes nothing, or poisons it.", "quantifier": "all histories of calls in which any call may be hit by a panic of a user function at any point, all trees, all grammars and inputs for parse", "why_tests_cant": "All histories and all points at which a function may panic.", "anchors": ["src/parsers/tree.rs: TreeHandle::with, with_mut, make_leaf_alt, make_branch_alt, Leaf::kind, Branch::action, AltSet::add", "src/parsers/earley.rs: parse"]}
{"id": "C118", "title": "The order in which the productions of a rule are added", "statement": "Two grammars that differ only in the order in which the productions of their rules were added give, for inputs whose parts productions divide in only one way, forests off which the same trees can be read. For other inputs the trees in the forest can depend on the order.", "quantifier": "every pair of accepted grammars that differ in the order of productions, all memory layouts, histories and token sequences", "why_tests_cant": "All grammars, reorderings and inputs; the merging of nodes in the chart depends on the order of productions.", "anchors": ["src/parsers/earley.rs: parse", "src/parsers/earley/state.rs: EarleyStateSet, EarleyStateKey", "src/grammar/base/builder.rs: RuleBuilder::add_prod"]}
{"id": "C119", "title": "Write locks", "statement": "A call on a tree takes the write lock of the tree it may change and of no other, and takes none if it only reads or is going to panic because it combines different trees. A call changes a tree only if it takes its write lock. It takes a read lock of exactly the trees of the objects it looks at (of the nodes of a branch up to the first that belongs to another tree, where it panics); is_same reads both trees and holds the first while it reads the second; make_branch_alt advances the iterator it is given while it holds a read lock of its tree, up to and including the first node of another tree.", "quantifier": "every history of calls, every call", "why_tests_cant": "All histories and arguments, and the order of lock operations is not visible to a test.", "anchors": ["src/parsers/tree.rs: TreeHandle::with, with_mut, make_node, make_leaf_alt, make_branch_alt, Node::add_alt, Node::add_all"]}
{"id": "C120", "title": "The shape of the forest", "statement": "Two calls of parse with the same grammar and tokens return forests of the same shape, wherever the rules of the grammar lie in memory and whatever calls on trees there were before: the nodes can be paired one to one, the two returned nodes with each other, such that the alternatives of paired nodes agree one for one (leaves in kind and value, branches in action and in their paired children). So the same trees are read off paired nodes, every node below the one is paired with one below the other, and to_dot draws the same graph up to the names of its nodes.", "quantifier": "every accepted grammar, all pairs of placements in memory, all pairs of histories of tree calls, all token sequences", "why_tests_cant": "All grammars, placements and inputs; the order in which nodes are merged differs between placements.", "anchors": ["src/parsers/earley.rs: parse, close_state", "src/parsers/earley/state.rs: EarleyStateSet, EarleyStateKey", "src/parsers/tree.rs: Node::alts, Node::to_dot, Alternative::content"]}
{"id": "C121", "title": "Debug of transformed actions and of null trees", "statement": "The fields of the action keys and values that transform_to_nonnull makes, and of null trees, cannot be read, but Debug shows them: {:?} and {:#?} of a transformed key (also inside the keys of a start grammar) determine the original key and for which nonterminals of the production the empty alternative was chosen; those of a transformed value determine the original value and the null tree of every named nonterminal that was left out; those of a null tree and of the result of the nullable pass determine them. All this also if blanks, line breaks and commas before closing brackets are ignored, provided the texts of the user's keys, values, nonterminals and names do not use the characters of the format; all that the pass and the transform make of a grammar with such names is covered.", "quantifier": "all pairs of keys, values, null trees and pass results, both formats, every accepted grammar with plain names", "why_tests_cant": "Quantifies over pairs of arbitrary nested trees.", "anchors": ["src/grammar/transform/nonnull.rs: ActionKey, ActionValue", "src/utils.rs: TreeNode, TreeValue", "src/grammar/passes/nullable/nullables.rs: GrammarNullableInfo", "src/start_grammar.rs: StartActionKey"]}
{"id": "C122", "title": "Pretty-printed actions and the errors of the transform", "statement": "ToDoc prints a transformed action key and value as the original ones, and those of a start grammar likewise, with <START> for the start production: so two productions of one rule of a transformed grammar, with different keys, can be printed alike. If transform_to_nonnull fails, its error reads 'found nullable ambiguities in grammar' exactly if some nonterminal has two different empty derivation trees, and otherwise 'Grammar failed to build', exactly if some rule keeps no production or some nonterminal can no longer be reached from the start.", "quantifier": "all keys and values, all texts a printer may make; every accepted grammar", "why_tests_cant": "All grammars; needs the trees of the grammar.", "anchors": ["src/grammar/transform/nonnull.rs: ToDoc for ActionKey, ToDoc for ActionValue, transform_to_nonnull", "src/start_grammar.rs: ToDoc for StartActionKey, ToDoc for StartActionValue", "src/grammar/passes/nullable/nullables.rs: NullableError"]}
{"id": "C123", "title": "The analyses of a wrapped grammar", "statement": "On the grammar made by wrap_grammar_with_start the passes end as on the original (same success, error or panic) and say the same about the original nonterminals, with these differences: the new start symbol is not nullable, has no FOLLOW set, and its FIRST set is that of the original start symbol, with the end of the stream in front if that is nullable; and the end of the stream is added to the FOLLOW set of the original start symbol and of every nonterminal that ends a production of one that has it. Null trees are the original ones with wrapped keys.", "quantifier": "every accepted grammar, every memory layout of it and of the wrapped grammar", "why_tests_cant": "All grammars; fixpoints on two grammars.", "anchors": ["src/start_grammar.rs: wrap_grammar_with_start", "src/grammar/passes/nullable/nullables.rs: calculate_nullables", "src/grammar/passes/firsts.rs: Firsts::run_pass", "src/grammar/passes/follows.rs: Follows::run_pass"]}
{"id": "C124", "title": "The analyses of a transformed grammar", "statement": "On a grammar made by transform_to_nonnull the Nullable and Firsts passes succeed and nothing is nullable. The transformed grammar derives exactly the nonempty sentential forms derivable in the original when every production that can derive the empty string is replaced by an empty one; its FIRST and FOLLOW sets are the textbook sets for these derivations, so FOLLOW is complete there. Follows panics on it exactly if some body has adjacent nonterminals all productions of the second of which begin with that nonterminal. So if only empty productions of a grammar derive the empty string and it has no dead ends, then after the transform the passes compute the textbook FIRST and FOLLOW sets of the original grammar.", "quantifier": "every accepted grammar on which the transform succeeds, every memory layout of it and of the result", "why_tests_cant": "All grammars; relates fixpoints on the result to derivations of the original.", "anchors": ["src/grammar/transform/nonnull.rs: transform_to_nonnull", "src/grammar/passes/nullable/nullables.rs: calculate_nullables", "src/grammar/passes/firsts.rs: Firsts::run_pass", "src/grammar/passes/follows.rs: Follows::run_pass"]}
{"id": "C125", "title": "Building LALR states uses the pass context like plain requests", "statement": "from_prod_lookahead leaves the PassContext as one get_pass::<Firsts>() call leaves it and returns an error exactly when that call does; shift_actions leaves it as one such call per terminal it lists. shift_actions on a state built for the same grammar never returns an error; on a context of another grammar the error is that of its first request, and from then on building any state on that context panics.", "quantifier": "every grammar, state, kernel and history of the context", "why_tests_cant": "The context is shared mutable state behind & references; only a statement over all histories says which calls can follow which.", "anchors": ["src/parsers/lalr.rs: ParseState::from_prod_lookahead, shift_actions", "src/grammar/passes.rs: PassContext::get_pass"]}
{"id": "C126", "title": "The textbook sets by wrapping and transforming", "statement": "Let only empty productions of a grammar derive the empty string. Then transform_to_nonnull, on the grammar and on the grammar wrapped with a start symbol, succeeds exactly if every rule has a production that is not empty and at most one empty one. If so, and there are no dead ends, then the passes on the wrapped and transformed grammar return the textbook sets of the original grammar: FIRST of A has t exactly if A derives something beginning with t; FOLLOW of A has t exactly if some nonterminal derives something in which t comes right after A, and the end of the stream exactly if the start symbol derives something that ends with A.", "quantifier": "every accepted grammar in which only empty productions derive the empty string, every memory layout of the grammars involved", "why_tests_cant": "All grammars and derivations; two transformations and three fixpoints.", "anchors": ["src/start_grammar.rs: wrap_grammar_with_start", "src/grammar/transform/nonnull.rs: transform_to_nonnull", "src/grammar/passes/firsts.rs: Firsts::run_pass", "src/grammar/passes/follows.rs: Follows::run_pass"]}
{"id": "C127", "title": "Names and orders of the user's types do not matter to trees and parses", "statement": "If all terminals, nonterminals, action keys and values are replaced by others, different ones by different ones, and the new types are ordered in any other way, then everything a program can see of trees and of parse stays the same up to the names: every sequence of calls on a TreeHandle and its handles returns the same handles, outcomes and renamed answers; parse on the renamed grammar and tokens panics in the same way, returns None or Some in the same cases, and the node it returns stands for exactly the renamed trees.", "quantifier": "every accepted grammar, every injective renaming into any ordered types, every input, every history of the tree, every memory layout on both sides", "why_tests_cant": "All types, orders, grammars, inputs and histories: the BTreeMaps and BTreeSets inside are ordered by the user's Ord.", "anchors": ["src/parsers/earley.rs: parse", "src/parsers/tree.rs: TreeHandle, Node, Alt", "src/grammar/base.rs: Grammar"]}
{"id": "C128", "title": "Names and orders of the user's types do not matter to building, analyses and transforms", "statement": "If all terminals, nonterminals, action keys and values are replaced by others, different terminals and nonterminals by different ones (different action keys may become the same), and the new types are ordered in any other way, then: Grammar::build with the renamed calls panics in the same way, returns an error that lists exactly the renamed nonterminals, or returns the renamed grammar; on the renamed grammar the Nullable, Firsts and Follows passes succeed, fail or panic as on the original, and the nullable nonterminals, null trees, FIRST and FOLLOW sets are the renamed ones; transform_to_nonnull fails with the same error, panics in the same way or returns the renamed transformed grammar.", "quantifier": "every sequence of builder calls, every accepted grammar, every renaming into any ordered types that keeps symbols apart, every memory layout on both sides", "why_tests_cant": "All types, orders and grammars: every map, set and work list is ordered by the user's Ord.", "anchors": ["src/grammar/base.rs: Grammar::new, check_grammar", "src/grammar/base/builder.rs: GrammarBuilder", "src/grammar/passes/nullable/nullables.rs: calculate_nullables", "src/grammar/passes/firsts.rs: Firsts::run_pass", "src/grammar/passes/follows.rs: Follows::run_pass", "src/grammar/transform/nonnull.rs: transform_to_nonnull"]}
{"id": "C129", "title": "Token values are only carried along", "statement": "Replacing the values of the tokens of an input by any function, also one that maps different values to the same one, never changes whether parse panics and how, or whether it returns None or Some; and the trees that can be read off the returned node are exactly the trees of the original parse with the values replaced.", "quantifier": "every accepted grammar, every input, every function on values, every history of both trees, every memory layout", "why_tests_cant": "All grammars, inputs and functions: leaves are interned by value, so equal values share alternatives and nodes.", "anchors": ["src/parsers/earley.rs: parse", "src/parsers/earley/state.rs: EarleyState::scan", "src/parsers/tree.rs: TreeHandle::make_leaf_alt, AltSet::add"]}
{"id": "C130", "title": "Values that compare equal", "statement": "The user's Ord on token values need not tell values apart (say, it ignores positions). Then only which values compare equal matters to the handles returned by the tree; two make_leaf_alt calls return the same alternative exactly if tree and kind agree and the values compare equal; Leaf::value reads the first such value that was given to that tree; parse panics, returns None or Some as with any other values; and the trees that can be read off the returned node are those with distinguishable values, with every token replaced by the first token like it that the tree was given, in an earlier call or in the input. So the tokens read off a returned forest need not be the tokens of the input.", "quantifier": "every order on values that is a total preorder, every accepted grammar, every input, every history, every memory layout", "why_tests_cant": "All orders, histories and inputs: the map that interns alternatives keeps the first key, and identity is by Ord.", "anchors": ["src/parsers/tree.rs: AltSet::add, TreeHandle::make_leaf_alt, Leaf::value", "src/parsers/earley.rs: parse"]}
{"id": "C131", "title": "Drawing a forest while other threads use the tree", "statement": "to_dot looks at a tree in many separate reads. Whatever other threads do to the tree in the meantime, it does not panic. If it returns, it has drawn, once each and with different names, everything that could be reached from the node when it began, and only things that could be reached when the last of them was found, passing only by things drawn; each is labelled with what the public operations report about it; the edges that leave a node are its alternatives at some later moment before it returned, in order, those that leave a branch are its children, and nothing else has edges; it has taken the read lock once for the node, twice for each node drawn and three times for each alternative. It returns if the tree stays below some size; if nobody changes the tree it draws what it draws alone. But the drawing need not be that of any one moment: an edge may lead to something that is not drawn; and while another thread goes on adding nodes, to_dot may never return.", "quantifier": "every history of calls, every schedule of other threads' calls between the reads, every node", "why_tests_cant": "All schedules: a test sees one interleaving, and only schedules with calls of other threads at particular points show edges to undrawn things.", "anchors": ["src/parsers/tree.rs: Node::to_dot, collect_nodes_and_alts, DotPrinter, TreeHandle::with"]}
{"id": "C132", "title": "Names and orders of the user's types do not matter to LALR states", "statement": "If all terminals, nonterminals, action keys and values are replaced by others, different terminals and nonterminals by different ones (different action keys may become the same), and the new types are ordered in any other way, then from_prod_lookahead with the renamed kernel on the renamed grammar fails with the same error, panics in the same way, or returns the state with the renamed items and lookaheads; on states that are the same up to names shift_actions panics in the same way, or returns the renamed terminals with states that are again the same up to names, and reducable_actions lists the renamed action keys, each as often.", "quantifier": "every accepted grammar, every renaming into any ordered types that keeps symbols apart, every kernel, every state obtained from it, every memory layout and standard library version on both sides", "why_tests_cant": "All types, orders, grammars and kernels: item sets, lookahead sets and kernels are BTreeMaps and BTreeSets ordered by the user's Ord and by addresses.", "anchors": ["src/parsers/lalr.rs: ParseState::from_prod_lookahead, shift_actions, reducable_actions"]}
{"id": "C133", "title": "Action keys are only carried along by the parser", "statement": "Giving the productions of a grammar other action keys by any function, also one that gives the same key to productions that had different ones, never changes whether parse panics and how, or whether it returns None or Some; and the trees that can be read off the returned node are exactly the trees of the parse with the original grammar with the keys replaced. The same holds if symbols are renamed (different ones to different ones) and token values replaced at the same time.", "quantifier": "every accepted grammar, every function on action keys, every input, every history of both trees, every memory layout", "why_tests_cant": "All grammars, inputs and functions: branches are interned by key and children, so productions with equal keys may come to share alternatives.", "anchors": ["src/parsers/earley.rs: parse", "src/parsers/earley/state.rs: EarleyState::complete", "src/parsers/tree.rs: TreeHandle::make_branch_alt, AltSet::add"]}
{"id": "C134", "title": "Kinds, action keys and values that compare equal", "statement": "The user's Ord need not tell apart everything that differs. For kinds, action keys and values under any total preorder: all operations on trees answer as they do for any other types whose orders say equal in the same cases; two calls of make_leaf_alt or make_branch_alt return the same alternative exactly if they were made on one tree with contents that compare equal, and what is read off it afterwards is the first of the contents given that compare equal. If Ord tells the terminals and nonterminals of the grammar apart, but not necessarily its action keys or the values, parse panics, returns None and returns Some exactly as for any other keys and values; the trees that can be read off the returned node are those of the parse with keys and values that can be told apart, with the actual keys, and with every token replaced by the first token given to the tree that compares equal. So every derivation tree of the input can be read off it with the very action keys of its productions, never with others that compare equal, and every tree that can be read off it is a derivation tree of that kind.", "quantifier": "every total preorder on kinds, keys and values, every history of calls, every accepted grammar, every input, every memory layout", "why_tests_cant": "All orders and histories: contents are found again in a BTreeMap by comparison only, and which of several that compare equal is kept depends on everything done before.", "anchors": ["src/parsers/tree.rs: AltSet::add, NodeContent", "src/parsers/earley.rs: parse", "src/parsers/earley/state.rs: EarleyState::complete"]}
{"id": "C135", "title": "Adding productions to a grammar", "statement": "If a grammar has the rules and productions of another, and more: where the Nullable pass fails on the smaller one it fails on the larger one; if it succeeds on both, what is nullable stays so, with the same null tree; FIRST and FOLLOW sets only grow; in the row 'panics as the input cannot be continued to a sentence', 'returns None', 'returns Some', 'panics as a production can be at two positions' the outcome of parse on any input stays or moves up; if parse returns Some with the larger grammar, all trees of the input in the smaller one can be read off the node; and a grammar on which parse can be relied on (C107) stays one when productions are removed. But transform_to_nonnull does not keep the order: adding an empty production can lose a nonempty sentence of the transformed grammar.", "quantifier": "every two accepted grammars one of which extends the other, every input, every history of both trees, every memory layout on both sides", "why_tests_cant": "All pairs of grammars and all inputs: production addresses, item order and node sharing all change when a production is added.", "anchors": ["src/parsers/earley.rs: parse", "src/grammar/passes/nullable/nullables.rs: calculate_nullables", "src/grammar/passes/firsts.rs: Firsts::run_pass", "src/grammar/passes/follows.rs: Follows::run_pass", "src/grammar/transform/nonnull.rs: transform_to_nonnull"]}
{"id": "C136", "title": "Continuing an input", "statement": "If parse panics on an input, it panics in the same way on every input that begins with it, whatever the trees were used for before. If it panics as a state is empty, no sentence begins with the input. If it returns, with None or Some, and every rule of the grammar generates some text, then some sentence begins with the input.", "quantifier": "every accepted grammar, every input, every continuation, every history, every memory layout", "why_tests_cant": "All grammars, inputs and continuations.", "anchors": ["src/parsers/earley.rs: parse", "src/parsers/earley/state.rs: EarleyState::scan, predict, complete"]}
{"id": "C137", "title": "Right-recursive grammars on which parse can be relied on", "statement": "If no production is empty, and no text of what follows an element in a production begins with a terminal with which a shorter text of that element could go on to a longer one, then for every word of the language parse returns a node from which exactly the derivation trees of the input can be read; it returns None if the input begins something the grammar derives, and panics otherwise. This covers the grammars of C107, and all grammars in which one token tells what to do once common beginnings of productions are taken together (such as sums of products in brackets, E -> T + E | T, T -> F * T | F, F -> ( E ) | n, or nested lists with separators): there each word has exactly one tree, every walk down the forest ends, and the condition can be checked with the FIRST sets the crate computes.", "quantifier": "every such grammar, every input, every earlier history of the tree, every memory layout", "why_tests_cant": "All grammars of the class and all inputs of any length.", "anchors": ["src/parsers/earley.rs: parse", "src/parsers/earley/state.rs: EarleyStateSet::insert", "src/grammar/passes/firsts.rs: Firsts"]}
{"id": "C138", "title": "LL(1) grammars with empty productions: transform, then parse", "statement": "Let a grammar satisfy the textbook condition LL(1), empty productions included: two productions of a nonterminal never begin with the same terminal, and if one can be empty the other does not begin with a terminal that can follow the nonterminal. Then the grammar the non-null transform returns for it has no production twice and is one on which parse can be relied on (C137): for a nonempty text parse with it returns a node from which exactly one tree can be read, and this tree stands for a derivation tree of the text in the original grammar; for the empty text, and for beginnings of texts that are not texts, it returns None; otherwise it panics. If only empty productions derive the empty text, these are exactly the nonempty texts of the original grammar, which is unambiguous. The condition can be checked with the nullable set and the FIRST sets the crate computes and a table of what may follow nonterminals.", "quantifier": "every accepted grammar with that property, every input, every earlier history of the tree, every memory layout", "why_tests_cant": "All LL(1) grammars, all subsets of nullable occurrences in their productions, and all inputs of any length.", "anchors": ["src/grammar/transform/nonnull.rs: transform_to_nonnull", "src/parsers/earley.rs: parse", "src/grammar/passes/nullable.rs: calculate_nullables", "src/grammar/passes/firsts.rs: Firsts"]}
{"id": "C139", "title": "Shifting tokens one after another in LALR states", "statement": "Build an LALR state with from_prod_lookahead and shift tokens one after another: each time take the state that shift_actions lists for the next token. The tokens determine the state that is reached, whatever pass context is used for each call; and from one state only finitely many states are reached in all, although the texts are unbounded. Each item of a state reached by w is an LR(0) item that is reached by reading w, so if the kernel consists of start productions at their beginning, then each token listed after w makes w a longer beginning of a sentential form, and each action that reducable_actions lists belongs to a production whose elements are the last terminals of w and whose nonterminal can stand in their place. If moreover no production can have been read up to two different positions after a beginning of w, and no set of lookaheads the code uses is empty, then the state has exactly these LR(0) items, and the tokens and actions listed are exactly theirs; without the first condition this fails (S -> A A, A -> a A | b, after a).", "quantifier": "every accepted grammar, every kernel, every text shifted, every sequence of pass contexts and way of collecting, every memory layout", "why_tests_cant": "All texts of any length; all sequences of states.", "anchors": ["src/parsers/lalr.rs: ParseState::from_prod_lookahead", "src/parsers/lalr.rs: ParseState::shift_actions", "src/parsers/lalr.rs: ParseState::reducable_actions"]}
{"id": "C140", "title": "Grammars of which parse does not accept every text", "statement": "Take an accepted grammar in which every production is used in the derivation of some text. parse returns a node for every text of its language exactly if the empty text is not in the language and no production has two different beginnings that derive the same text; otherwise parse panics on some text of the language, with the assertion about lengths. Two beginnings of a production derive the same text whenever one of them derives the other: in particular if a production begins with its own nonterminal and goes on (lists L -> L x, infix expressions E -> E + E), or if a nonterminal in it can be empty. So if parse accepts every text, no nonterminal can be empty and no production is left-recursive in this way.", "quantifier": "every such grammar, every text, every earlier history of the tree, every memory layout", "why_tests_cant": "All grammars and all texts of any length; that no text fails cannot be seen from finitely many texts.", "anchors": ["src/parsers/earley.rs: parse", "src/parsers/earley/state.rs: EarleyStateSet::insert", "src/parsers/earley/state.rs: EarleyState"]}
{"id": "C141", "title": "Exactly the grammars for which parse is right", "statement": "Take an accepted grammar in which every production is used in the derivation of some text. parse is right for it - for every text of its language it returns a node from which exactly the derivation trees of the text can be read - exactly if the grammar has none of three faults: the empty text is in its language; some production has two different beginnings that derive the same text; some text can be divided in two ways between the first elements of a production and the next one. If it has one of the first two, parse panics on some text of the language; if it has only the third, parse returns for some text of the language a node from which something can be read that does not spell the text. Unambiguous grammars do not have the third fault, and the grammars of C137 have none. A grammar of this kind for which parse is right stays one when productions are taken away, as long as every production left is still used. For texts outside the language parse with a grammar that is right returns None if they begin a text of the language, and panics otherwise.", "quantifier": "every such grammar, every text, every earlier history of the tree, every memory layout", "why_tests_cant": "All grammars and all texts of any length, and all ways of reading the node.", "anchors": ["src/parsers/earley.rs: parse", "src/parsers/earley/state.rs: EarleyStateSet::insert", "src/parsers/tree.rs: TreeHandle"]}
{"id": "C142", "title": "What a parse costs if inputs are divided in one way only", "statement": "If no production can divide its part of the input between its first elements and the next one in two ways - so for all inputs of unambiguous grammars whose nonterminals all derive something, and of the grammars of C141 - then parse makes at most C*(n+1)^4 calls on its tree for n tokens, and no closing loop makes more than D*(n+1) passes, where C and D depend only on the number of productions of the grammar and the length of the longest. This holds whatever trees hold and in every schedule with other threads; the number of nodes and alternatives made is bounded like the calls.", "quantifier": "every accepted grammar and input with this property, every earlier history of the trees, every schedule, every memory layout", "why_tests_cant": "A bound for all lengths of inputs cannot be seen from measuring some.", "anchors": ["src/parsers/earley.rs: parse, close_state", "src/parsers/earley/state.rs: EarleyStateSet::insert"]}
{"id": "C143", "title": "Exactly the grammars for which transforming and then parsing is right", "statement": "Take an accepted grammar in which every production is used in the derivation of some text and only empty productions derive the empty text, and for which transform_to_nonnull succeeds. Then parsing with the result is right - for every text of the original grammar that is not empty parse returns a node from which exactly the trees of the text can be read, and these stand one to one for the derivation trees of the text in the original grammar - exactly if the original grammar has neither of two faults: some text is a text both of the first elements of a production and of those and some more, where the same elements are empty both times and not all of the additional ones are; some text can be divided in two ways between the first elements of a production and the next one, where the same elements are empty both times. With the first fault parse panics on some text; with one of the two, it panics or returns a node from which something can be read that does not spell the text. Unambiguous grammars do not have the second fault, the LL(1) grammars of C138 have neither, nor have grammars in which every element derives at most one text that is not empty. Without the faults parse returns None for the empty text and other beginnings of texts that are not texts themselves, and panics for all else. The result of the transform has no useless productions if the grammar has none.", "quantifier": "every such grammar, every text, every earlier history of the tree, every memory layout", "why_tests_cant": "All grammars and all texts of any length, and all ways of reading the node.", "anchors": ["src/grammar/transform/nonnull.rs: transform_to_nonnull", "src/parsers/earley.rs: parse", "src/parsers/earley/state.rs: EarleyStateSet::insert"]}
{"id": "C144", "title": "Action keys tell derivation trees apart", "statement": "If no two productions have both the same head and the same action key (C79), then two different derivation trees of a nonterminal stay different when each production in them is replaced by its action key. So each tree that can be read from a node that parse returned, which names action keys only, is that of exactly one derivation tree of the input. If two different derivation trees have the input as their text, two different trees can be read from the node; if no production can divide its part of the input in two ways, the converse holds too, so that the input is ambiguous exactly if two trees can be read. A grammar in which every production is used and for which parse accepts every text of the language (C140) is unambiguous exactly if exactly one tree can be read from each node that parse returns. The condition on keys is needed.", "quantifier": "every such grammar, every input, every earlier history of the tree, every memory layout", "why_tests_cant": "All grammars, inputs of any length, and all ways of reading the node.", "anchors": ["src/parsers/earley.rs: parse", "src/parsers/tree.rs: TreeHandle", "src/grammar/base.rs: Prod::prod_key"]}
{"id": "C145", "title": "Counting the trees in the forest", "statement": "If no two productions have both the same head and the same action key, and no production can divide its part of the input in two ways, then reading is a one-to-one correspondence between the derivation trees of the input and the trees that can be read from the node that parse returns, so there are as many of the one as of the other; without the second condition there are at least as many trees to be read, and without the first at most as many. For a grammar in which every production is used and for which parse is right (C141), every walk down from every node that parse returns comes to an end exactly if no nonterminal derives itself.", "quantifier": "every such grammar, every input, every earlier history of the tree, every memory layout", "why_tests_cant": "All grammars, inputs of any length, all ways of reading the node and walking down from it, also infinitely many.", "anchors": ["src/parsers/earley.rs: parse", "src/parsers/tree.rs: TreeHandle, Node", "src/grammar/base.rs: Prod::prod_key"]}
{"id": "C146", "title": "Drawing a forest when locks are poisoned and Debug panics", "statement": "If the lock of the tree is poisoned when to_dot begins, to_dot panics at its first read. If it becomes poisoned while to_dot runs, to_dot panics at the next read it makes, if it makes one, and nothing else is different. Otherwise to_dot panics only if Debug of a kind, value or action does, whatever other threads do; and if nobody changes the tree, it panics exactly if Debug does for some alternative that can be reached from the node, and else draws what it always draws. This holds after every history of calls in which functions of the user may have panicked.", "quantifier": "every history of calls with panics, every node held, all Debug implementations, every schedule of poisonings and of other threads' calls between reads", "why_tests_cant": "All histories, schedules and forests of any size.", "anchors": ["src/parsers/tree.rs: Node::to_dot", "src/parsers/tree.rs: DotPrinter", "src/parsers/tree.rs: TreeHandle::with"]}
{"id": "C147", "title": "Transforming and then parsing is right: all grammars", "statement": "Take an accepted grammar for which transform_to_nonnull succeeds, from which every derivation can be completed, and in which every production that does not derive the empty text is used in a derivation where those that do are empty. (C143 is the case that only empty productions derive the empty text.) The derivation trees of the result stand one to one for those derivation trees of the original that spell something and in which no production that can derive the empty text derives something. For every text of the original with such productions made empty, that is not empty, parse with the result returns a node from which exactly these trees of the text can be read, exactly if the original with such productions made empty has neither of the two faults of C143. Otherwise parse panics for one such text, or returns a node from which something can be read that does not spell the text. So parse with the result finds every text of the original that is not empty, and is right for it, exactly if there is neither fault and all these texts can be derived with such productions made empty.", "quantifier": "every such grammar, every text, every earlier history of the tree, every memory layout", "why_tests_cant": "All grammars and all texts of any length, and all ways of reading the node.", "anchors": ["src/grammar/transform/nonnull.rs: transform_to_nonnull", "src/parsers/earley.rs: parse", "src/parsers/earley/state.rs: EarleyStateSet::insert"]}
{"id": "C148", "title": "Counting trees after the transform", "statement": "If no two productions of a grammar have both the same head and the same action key, the same holds for the result of transform_to_nonnull. Let moreover the second fault of C147 be absent. Then the trees that can be read from the node that parse with the result returns correspond one to one to the derivation trees of the text in the result, and these do so to the derivation trees of the text in the original in which no production that can derive the empty text derives something; so there are as many of the one as of the other. If only empty productions derive the empty text these are all the derivation trees of the text: a text that is not empty is ambiguous in the original grammar exactly if two trees can be read from the node.", "quantifier": "every such grammar, every text that is not empty, every earlier history of the tree, every memory layout", "why_tests_cant": "All grammars, texts of any length and all ways of reading the node, also infinitely many.", "anchors": ["src/grammar/transform/nonnull.rs: transform_to_nonnull", "src/parsers/earley.rs: parse", "src/parsers/tree.rs: TreeHandle", "src/grammar/base.rs: Prod::prod_key"]}
{"id": "C149", "title": "What transforming costs a parse", "statement": "The grammar that transform_to_nonnull returns has, for each production of the original that does not derive the empty text and has k elements that can be empty, 2^k productions, none for the others, and no more; none is longer than the one it stands for. So if the original has p productions of at most e elements, of which at most k can be empty, parse with the result makes at most as many calls on the tree as C102 allows a grammar with p 2^k productions of at most e elements: a constant times the sixth power of the number of tokens plus one; and the fourth power, as in C142, if the original does not have the second fault of C147, or is unambiguous and each of its derivations can be completed.", "quantifier": "every accepted grammar for which the transform succeeds, every input, every earlier history of the tree, every memory layout", "why_tests_cant": "All grammars and inputs of any length.", "anchors": ["src/grammar/transform/nonnull.rs: transform_to_nonnull", "src/parsers/earley.rs: parse, close_state", "src/parsers/tree.rs: TreeHandle"]}
