{"id": "C01", "title": "DFA acceptance follows the transition table", "statement": "For every valid DFA and every list of elements, Dfa::accepts returns true exactly when every element belongs to the alphabet and the run that starts in the initial state and follows the transition table ends in an accepting state; an element outside the alphabet always causes rejection.", "quantifier": "all valid DFAs, all words (lists of strings) of any length, including words with foreign elements", "why_tests_cant": "infinitely many automata and words; a wrong column lookup or a forgotten unknown-element case only shows on particular words", "anchors": ["dandy/src/dfa/mod.rs: Dfa::accepts", "dandy/src/dfa/eval.rs: DfaEvaluator::step, step_multiple, is_accepting, From<&Dfa>"]}
{"id": "C02", "title": "NFA acceptance is existence of an accepting path", "statement": "For every valid NFA (with or without epsilon moves) and every list of elements, Nfa::accepts returns true exactly when some path from the initial state, reading the elements and taking any number of epsilon moves anywhere, ends in an accepting state.", "quantifier": "all valid NFAs, all words", "why_tests_cant": "the set of paths is infinite (epsilon cycles) and acceptance is existential over it", "anchors": ["dandy/src/nfa/mod.rs: Nfa::accepts", "dandy/src/nfa/eval.rs: NfaEvaluator::step, include_closure, is_accepting"]}
{"id": "C03", "title": "DFA evaluator: stepping is compositional and unknown elements are sticky", "statement": "For every DFA evaluator history, feeding elements one at a time, in chunks with step_multiple, or all at once leads to the same accepting verdict as Dfa::accepts on the concatenation of everything fed; after one unknown element the evaluator has no current state and rejects forever, step returns a state exactly when no unknown element has been seen, and step_multiple never reports a state after an unknown element.", "quantifier": "all sequences of step / step_multiple calls on a fresh evaluator", "why_tests_cant": "quantifies over all call histories", "anchors": ["dandy/src/dfa/eval.rs: DfaEvaluator"]}
{"id": "C04", "title": "NFA evaluator tracks exactly the set of possible states", "statement": "After any history of step / step_multiple calls with known elements, NfaEvaluator::current_states_idx is exactly the set of states reachable from the initial state by the elements fed (with epsilon moves anywhere); after an unknown element the evaluator never accepts again.", "quantifier": "all call histories on a fresh evaluator, all valid NFAs", "why_tests_cant": "quantifies over all histories and all epsilon structures, including cycles", "anchors": ["dandy/src/nfa/eval.rs: NfaEvaluator"]}
{"id": "C05", "title": "Epsilon closure is exact and terminates", "statement": "Nfa::closure(i) returns None exactly when i is not a state index, and otherwise terminates with exactly the states reachable from i by zero or more epsilon moves, even with epsilon cycles.", "quantifier": "all valid NFAs, all indices", "why_tests_cant": "termination and exactness on every epsilon graph cannot be sampled", "anchors": ["dandy/src/nfa/mod.rs: Nfa::closure"]}
{"id": "C06", "title": "step_all yields one evaluator per alphabet element, in order", "statement": "DfaEvaluator::step_all and NfaEvaluator::step_all return exactly one evaluator per element of the alphabet, in alphabet order, the i-th being the evaluator stepped by the i-th element, and leave the original unchanged.", "quantifier": "all evaluators reachable by any history", "why_tests_cant": "for every automaton and history", "anchors": ["dandy/src/dfa/eval.rs: DfaEvaluator::step_all", "dandy/src/nfa/eval.rs: NfaEvaluator::step_all"]}
{"id": "C07", "title": "invert accepts exactly the complement", "statement": "After Dfa::invert a word over the alphabet is accepted iff it was not accepted before; words with foreign elements stay rejected; nothing but accepting flags changes; inverting twice restores the DFA.", "quantifier": "all valid DFAs, all words", "why_tests_cant": "language complement quantifies over all words", "anchors": ["dandy/src/dfa/mod.rs: Dfa::invert"]}
{"id": "C08", "title": "DFA product construction computes the combined language", "statement": "Dfa::product_construction terminates and returns None exactly when the alphabets differ as sets; otherwise the result accepts a word over the alphabet iff the combinator holds of the two states the two DFAs are in after that word, whatever the combinator and whatever the order of the two alphabets; alphabet order is that of the first DFA.", "quantifier": "all pairs of valid DFAs, all combinators, all words, all hash iteration orders", "why_tests_cant": "worklist exploration correctness over all pairs of automata; alphabets may be permuted", "anchors": ["dandy/src/dfa/mod.rs: Dfa::product_construction", "dandy/src/util.rs: alphabet_equal"]}
{"id": "C09", "title": "union, intersection, difference and symmetric difference are correct", "statement": "For DFAs with equal alphabets (as sets), union/intersection/difference/symmetric_difference return a DFA accepting exactly the words accepted by A or B / A and B / A but not B / exactly one of them; they return None iff the alphabets differ.", "quantifier": "all pairs of valid DFAs, all words", "why_tests_cant": "language equality quantifies over infinitely many words", "anchors": ["dandy/src/dfa/mod.rs: Dfa::union, intersection, difference, symmetric_difference"]}
{"id": "C10", "title": "Product construction is reduced and well-formed", "statement": "Every state of a DFA product construction is reachable from its initial state, there are no more than |A|*|B| states, the state names are pairwise distinct, exactly one state is initial, every transition goes to an existing state; and none of the internal expect() calls can panic.", "quantifier": "all pairs of valid DFAs, all hash orders (names depend on it)", "why_tests_cant": "name collisions and index bookkeeping depend on particular names and hash orders", "anchors": ["dandy/src/dfa/mod.rs: Dfa::product_construction"]}
{"id": "C11", "title": "DFA equivalence check is a decision procedure", "statement": "Dfa::equivalent_to terminates and returns true iff both DFAs have the same alphabet as a set and accept exactly the same words.", "quantifier": "all pairs of valid DFAs", "why_tests_cant": "a false positive hides behind one distinguishing word among infinitely many", "anchors": ["dandy/src/dfa/mod.rs: Dfa::equivalent_to"]}
{"id": "C12", "title": "DFA reachability is exact", "statement": "Dfa::reachable_state_idx terminates with exactly the states some word leads to, unreachable_state_idx is its complement among the state indices, reachable_states/unreachable_states list those states once each, and has_reachable_accepting_state is true iff the DFA accepts some word.", "quantifier": "all valid DFAs, all hash orders", "why_tests_cant": "reachability over every graph; termination on cycles", "anchors": ["dandy/src/dfa/mod.rs: reachable_state_idx, unreachable_state_idx, reachable_states, unreachable_states, has_reachable_accepting_state"]}
{"id": "C13", "title": "Removing unreachable DFA states is safe", "statement": "Dfa::remove_unreachable_states never panics, keeps exactly the reachable states (names, flags, relative order), and preserves the accepted language and the alphabet; all remaining states are reachable.", "quantifier": "all valid DFAs", "why_tests_cant": "index renumbering errors appear only for particular removal patterns", "anchors": ["dandy/src/dfa/mod.rs: remove_unreachable_states, remove_states, remap_transitions"]}
{"id": "C14", "title": "State equivalence classes are exactly indistinguishability", "statement": "Dfa::state_equivalence_classes_idx terminates and returns non-empty, pairwise disjoint classes covering all states, such that two states are in one class iff no word leads exactly one of them to an accepting state.", "quantifier": "all valid DFAs", "why_tests_cant": "Hopcroft's worklist with the smaller-half trick is wrong only on rare split orders; distinguishability quantifies over all words", "anchors": ["dandy/src/dfa/mod.rs: state_equivalence_classes_idx, state_equivalence_classes"]}
{"id": "C15", "title": "Merging indistinguishable states preserves the language", "statement": "Dfa::merge_nondistinguishable_states never panics and preserves alphabet and language for every possible choice of representatives; afterwards all states are pairwise distinguishable and the number of states equals the number of equivalence classes.", "quantifier": "all valid DFAs, all hash iteration orders choosing representatives", "why_tests_cant": "the surviving representative is nondeterministic", "anchors": ["dandy/src/dfa/mod.rs: merge_nondistinguishable_states, remove_states, remap_transitions"]}
{"id": "C16", "title": "minimize yields a minimal equivalent DFA", "statement": "Dfa::minimize never panics, preserves alphabet and language, and the result has the least number of states among all valid DFAs over the same alphabet accepting the same language.", "quantifier": "all valid DFAs, all hash orders, all competing DFAs", "why_tests_cant": "minimality quantifies over all other automata", "anchors": ["dandy/src/dfa/mod.rs: Dfa::minimize"]}
{"id": "C17", "title": "Minimization is unique", "statement": "Two DFAs that are equivalent (same alphabet in the same order, same language) minimize to DFAs that are isomorphic (identical up to renaming and reordering states), for all hash orders; in particular minimizing twice does not change the number of states.", "quantifier": "all pairs of equivalent valid DFAs, all hash orders", "why_tests_cant": "quantifies over all equivalent automata", "anchors": ["dandy/src/dfa/mod.rs: Dfa::minimize (module doc: 'The minimization is unique')"]}
{"id": "C18", "title": "DFA to NFA conversion preserves everything", "statement": "Dfa::to_nfa yields an NFA without epsilon moves with the same alphabet, state names, flags and initial state, accepting exactly the same words.", "quantifier": "all valid DFAs, all words", "why_tests_cant": "language equality over all words", "anchors": ["dandy/src/dfa/mod.rs: Dfa::to_nfa, From<DfaState> for NfaState"]}
{"id": "C19", "title": "Subset construction preserves the language", "statement": "Nfa::to_dfa terminates without panicking and yields a valid DFA with the same alphabet accepting exactly the same words; its states are named 0,1,2,... in order, state 0 is the initial one, every state is reachable and there are at most 2^n of them.", "quantifier": "all valid NFAs with or without epsilon moves, all words", "why_tests_cant": "exponential worklist with set-keyed maps; equality of languages over all words", "anchors": ["dandy/src/nfa/mod.rs: Nfa::to_dfa, set_to_vec"]}
{"id": "C20", "title": "NFA equivalence check is a decision procedure", "statement": "Nfa::equivalent_to terminates and returns true iff both NFAs have the same alphabet as a set and accept exactly the same words.", "quantifier": "all pairs of valid NFAs", "why_tests_cant": "one distinguishing word among infinitely many", "anchors": ["dandy/src/nfa/mod.rs: Nfa::equivalent_to"]}
{"id": "C21", "title": "NFA union accepts exactly the union", "statement": "Nfa::union returns Err with both unchanged inputs iff the alphabets differ as sets; otherwise the resulting NFA is valid (unique names, single initial state), uses the first alphabet's order, and accepts a word iff at least one operand does, even when the alphabets are ordered differently.", "quantifier": "all pairs of valid NFAs, all words, all alphabet permutations, all name clashes", "why_tests_cant": "column re-ordering is wrong only for particular permutations (e.g. 3-cycles)", "anchors": ["dandy/src/nfa/mod.rs: Nfa::union, remap_transitions, fresh_name"]}
{"id": "C22", "title": "NFA intersection accepts exactly the intersection", "statement": "Nfa::intersection returns None iff the alphabets differ as sets; otherwise it terminates with a valid NFA accepting a word iff both operands do, including with epsilon moves in either operand and permuted alphabets.", "quantifier": "all pairs of valid NFAs, all words, all hash orders", "why_tests_cant": "asynchronous epsilon moves and dead components over all words", "anchors": ["dandy/src/nfa/mod.rs: Nfa::intersection, product_construction"]}
{"id": "C23", "title": "NFA product construction with a general combinator", "statement": "The NFA built by Nfa::product_construction accepts a word iff the combinator holds for some pair of outcomes of runs of the two NFAs on that word, where a component is a state some complete run of that operand ends in, or 'none' once some run of that operand got stuck; in particular pairs of two real states are exactly all pairs of states the two NFAs can be in, and the 'or' combinator yields the union.", "quantifier": "all pairs of valid NFAs, all combinators, all words", "why_tests_cant": "quantifies over combinators and runs", "anchors": ["dandy/src/nfa/mod.rs: Nfa::product_construction"]}
{"id": "C24", "title": "'none' in the NFA product means the operand is in no state (documented claim)", "statement": "Documentation says a pair (None, Some(A)) corresponds to NFA 1 being in no states at that point. The claim: with a combinator that holds only for a 'none' first component, a word is accepted only if NFA 1 has no complete run on it.", "quantifier": "all pairs of valid NFAs, all words", "why_tests_cant": "needs a search over automata with partially stuck runs; it is in fact false for some", "anchors": ["dandy/src/nfa/mod.rs: Nfa::product_construction (doc comment lines 460-462)"]}
{"id": "C25", "title": "Removing epsilon moves preserves the language", "statement": "Nfa::remove_epsilon_moves terminates without panicking, leaves no epsilon moves (has_epsilon_moves is false), keeps the alphabet, and accepts exactly the same words, for every hash iteration order; the result is valid with unique state names and one initial state; an NFA without epsilon moves is left untouched.", "quantifier": "all valid NFAs, all words, all hash orders", "why_tests_cant": "dead-state pruning, initial-state splitting and renumbering interact; wrong only on rare shapes", "anchors": ["dandy/src/nfa/mod.rs: remove_epsilon_moves, remove_states, fresh_name"]}
{"id": "C26", "title": "After epsilon removal no useless dead states remain", "statement": "If the NFA had epsilon moves, after remove_epsilon_moves every remaining state that is neither initial nor accepting has a transition to some remaining state, i.e. no 'dead state' as documented is left.", "quantifier": "all valid NFAs with epsilon moves", "why_tests_cant": "fixpoint completeness over all graphs", "anchors": ["dandy/src/nfa/mod.rs: remove_epsilon_moves"]}
{"id": "C27", "title": "NFA reachability and unreachable-state removal", "statement": "Nfa::reachable_state_idx terminates with exactly the states on some path from the initial state; has_reachable_accepting_state holds iff some word is accepted; remove_unreachable_states never panics, keeps exactly the reachable states in order and preserves the language.", "quantifier": "all valid NFAs, all words, all hash orders", "why_tests_cant": "graph reachability and renumbering for every shape", "anchors": ["dandy/src/nfa/mod.rs: reachable_state_idx, unreachable_state_idx, has_reachable_accepting_state, remove_unreachable_states"]}
{"id": "C28", "title": "optimize preserves the language", "statement": "Nfa::optimize never panics, preserves the accepted language and alphabet, and leaves an NFA without epsilon moves.", "quantifier": "all valid NFAs, all words, all hash orders", "why_tests_cant": "composition of two rewrites on every automaton", "anchors": ["dandy/src/nfa/mod.rs: Nfa::optimize"]}
{"id": "C29", "title": "Word enumeration is sound", "statement": "Every item the word iterators yield for an NFA without epsilon moves is accepted by that NFA.", "quantifier": "all valid epsilon-free NFAs, every prefix length of the iteration", "why_tests_cant": "the iterator keeps a stack of state sets across calls; errors appear late in the iteration", "anchors": ["dandy/src/nfa/words.rs: WordComponentIndices::next, put_next, next_word, min_word"]}
{"id": "C30", "title": "Word enumeration is strictly increasing in length-lexicographic order", "statement": "Each yielded word is strictly greater than the previous one: shorter words first, words of equal length ordered by alphabet position; so no duplicates.", "quantifier": "all valid epsilon-free NFAs, all iteration prefixes", "why_tests_cant": "ordering must hold at every step forever", "anchors": ["dandy/src/nfa/words.rs: WordComponentIndices"]}
{"id": "C31", "title": "Word enumeration skips nothing", "statement": "Every accepted word is eventually yielded: between two consecutive yielded words, and before the first, there is no accepted word; when the iterator returns None, all accepted words have been yielded, and it keeps returning None.", "quantifier": "all valid epsilon-free NFAs, all accepted words", "why_tests_cant": "completeness over an infinite language; the length-gap bound relies on a pumping argument", "anchors": ["dandy/src/nfa/words.rs: WordComponentIndices::put_next"]}
{"id": "C32", "title": "The three word iterators agree, and the iterator never panics", "statement": "words(), word_components() and word_component_indices() yield, at each call, the same word as a concatenated string, as alphabet elements and as indices; none of the internal unwrap/expect/index operations can fail for an epsilon-free NFA; construction panics exactly when the NFA has epsilon moves.", "quantifier": "all valid NFAs, all call counts", "why_tests_cant": "panic-freedom at every step of an unbounded iteration", "anchors": ["dandy/src/nfa/words.rs: Words, WordComponents, WordComponentIndices::new"]}
{"id": "C33", "title": "Enumerating an automaton and its complement yields every word", "statement": "For a DFA, each word over the alphabet is eventually yielded by exactly one of the enumerations of the DFA and of its inverse.", "quantifier": "all valid DFAs, all words over the alphabet", "why_tests_cant": "infinite set of words", "anchors": ["dandy/src/nfa/mod.rs module doc 'iterating the words of a NFA and its complement will yield all strings'", "dandy/src/nfa/words.rs"]}
{"id": "C34", "title": "Regex to NFA is correct", "statement": "The NFA produced by Regex::to_nfa accepts a list of graphemes iff it matches the regular expression (sequence, alternation, repetition, single grapheme, epsilon, empty language), for arbitrarily nested trees including empty sequences and alternatives.", "quantifier": "all regex trees, all words", "why_tests_cant": "recursive construction with global state numbering; all trees and words", "anchors": ["dandy/src/regex/mod.rs: Regex::to_nfa, tree_to_nfa"]}
{"id": "C35", "title": "Regex to NFA yields a valid automaton over exactly the regex's graphemes", "statement": "The NFA from Regex::to_nfa is valid, its alphabet is exactly the graphemes of the expression in order of first occurrence without duplicates, state names equal their index, state 1 is initial and state 0 is the only accepting state.", "quantifier": "all regex trees", "why_tests_cant": "state numbering consistency over all nestings", "anchors": ["dandy/src/regex/mod.rs: Regex::to_nfa, StateCounter"]}
{"id": "C36", "title": "Regex parser implements the documented grammar", "statement": "parser::regex accepts a text iff, after trimming surrounding whitespace, it is a sentence of the documented grammar (alternation of sequences of atoms with at most one + or *; atoms are parenthesised expressions, epsilon, empty-language, escaped clusters and non-reserved clusters), and the tree it returns denotes that sentence's language (+ means one or more).", "quantifier": "all input texts, all grapheme segmentations of the library", "why_tests_cant": "grammar membership quantifies over all texts and nestings", "anchors": ["dandy/src/parser/regex.rs: full_regex, alternation, sequence, par_expr, combinated_char, apply_kleene", "dandy/src/parser/mod.rs: regex"]}
{"id": "C37", "title": "Regex::to_string can be re-parsed to an equivalent regex", "statement": "For every parsed regex, parsing Regex::to_string of it succeeds and yields a regex with the same language.", "quantifier": "all parseable regexes", "why_tests_cant": "depends on escaping of every possible grapheme; false for escaped epsilon / empty-set characters and some clusters", "anchors": ["dandy/src/regex/mod.rs: Regex::to_string, build_string", "dandy/src/parser/regex.rs"]}
{"id": "C38", "title": "DFA validation is exact", "statement": "Converting a parsed table to a Dfa succeeds iff the header has no duplicates, state names are distinct, every row has exactly one target per element, all targets are defined, and exactly one row is marked initial; the resulting DFA has exactly the table's content; otherwise the error returned names a defect that really is present (with right names and counts).", "quantifier": "all parsed DFA tables", "why_tests_cant": "many simultaneous defects, arbitrary sizes", "anchors": ["dandy/src/dfa/parse.rs: TryFrom<ParsedDfa> for Dfa"]}
{"id": "C39", "title": "NFA validation is exact", "statement": "Same for NFAs, including at most one epsilon column at any position, whose entries become the epsilon transitions and are removed from the other columns.", "quantifier": "all parsed NFA tables", "why_tests_cant": "position of the epsilon column and defects are arbitrary", "anchors": ["dandy/src/nfa/parse.rs: TryFrom<ParsedNfa> for Nfa"]}
{"id": "C40", "title": "DFA table round trip", "statement": "For every valid DFA with a non-empty alphabet whose names and elements are legal tokens, parsing and validating Dfa::to_table (or ascii_table) yields the very same DFA; for no other valid DFA does it.", "quantifier": "all such DFAs (names of any length and script)", "why_tests_cant": "padding, unicode widths, prefixes such as names starting with '->' or '*'", "anchors": ["dandy/src/dfa/mod.rs: to_table, ascii_table, gen_table", "dandy/src/table/mod.rs: Table", "dandy/src/parser/fa.rs: full_dfa", "dandy/src/dfa/parse.rs"]}
{"id": "C41", "title": "NFA table round trip", "statement": "For every valid NFA whose names and elements are legal tokens (alphabet may be empty), parsing and validating Nfa::to_table (or ascii_table) yields the very same NFA; for no other valid NFA does it.", "quantifier": "all such NFAs", "why_tests_cant": "as for DFAs, plus sets and epsilon column", "anchors": ["dandy/src/nfa/mod.rs: to_table, ascii_table, gen_table", "dandy/src/table/mod.rs: Table", "dandy/src/parser/fa.rs: full_nfa", "dandy/src/nfa/parse.rs"]}
{"id": "C42", "title": "Table layout does not matter", "statement": "Parsing a DFA or NFA table gives the same result whatever the amount of spaces/tabs between entries, leading/trailing spaces, comments after '#', blank or comment-only lines, LF or CRLF line ends, and choice of '->' or the arrow symbol ('eps' or the epsilon symbol).", "quantifier": "all layouts of all tables", "why_tests_cant": "infinitely many layouts", "anchors": ["dandy/src/parser/fa.rs: full_dfa, full_nfa, space_comment, space_comment_line, comment"]}
{"id": "C43", "title": "The table parser accepts only tables", "statement": "Whenever parser::dfa or parser::nfa succeeds, the text is a layout of the returned table: reserved words never become names or elements, names are non-empty and contain no whitespace, '#', '{' or '}'.", "quantifier": "all input texts", "why_tests_cant": "all texts", "anchors": ["dandy/src/parser/fa.rs", "dandy/src/parser/mod.rs: dfa, nfa"]}
{"id": "C44", "title": "Every automaton obtainable through the API is valid", "statement": "Any DFA or NFA obtained from parsing/validating or from regexes by any sequence of public operations is valid: distinct alphabet elements, distinct state names, full transition rows with existing targets, exactly one initial state, flagged consistently with initial_state_index.", "quantifier": "all finite histories of API operations", "why_tests_cant": "arbitrary operation histories", "anchors": ["dandy/src/dfa/mod.rs", "dandy/src/nfa/mod.rs", "dandy/src/regex/mod.rs", "dandy/src/dfa/parse.rs", "dandy/src/nfa/parse.rs"]}
{"id": "C45", "title": "Every table-born automaton can be written back and re-read at any time", "statement": "Any NFA obtained from parsed tables by any sequence of public operations can be printed with to_table or ascii_table and parsed to the identical automaton; so can any DFA, if no source table has an empty alphabet (an NFA table with only an epsilon column determinizes to a DFA whose table cannot be parsed).", "quantifier": "all finite histories of API operations starting from parsed tables", "why_tests_cant": "generated names (pairs, numbers, s_new) must stay legal and distinct through arbitrary nesting", "anchors": ["dandy/src/dfa/mod.rs: to_table", "dandy/src/nfa/mod.rs: to_table", "dandy/src/parser/fa.rs"]}
{"id": "C46", "title": "Fresh names are fresh", "statement": "The name invented for a new state by union and epsilon removal differs from all names in the automaton, for any existing names.", "quantifier": "all automata, all name sets", "why_tests_cant": "adversarial names such as s_new, 0, 1, 2, ...", "anchors": ["dandy/src/nfa/mod.rs: fresh_name"]}
{"id": "C47", "title": "CLI conversions preserve the language", "statement": "Automata::into_dfa, into_nfa, into_minimized_dfa, into_minimized_dfa_if_not_dfa and convert_to preserve the language, return the documented type, and the returned flag is true exactly when a conversion (or state-reducing minimization) happened; convert_to fails only for converting a DFA/NFA to a regex.", "quantifier": "all automata of all three kinds", "why_tests_cant": "all automata and words", "anchors": ["dandy-cli/src/automata.rs: Automata::into_dfa, into_nfa, into_minimized_dfa, convert_to, prepare_to_compare_with"]}
{"id": "C48", "title": "CLI equivalence verdict is correct", "statement": "Automata::test_equivalence (without the minimized option) answers Equivalent iff both automata, of whatever kinds, have the same alphabet set and language; all three base kinds agree.", "quantifier": "all pairs of automata of all kinds", "why_tests_cant": "all pairs", "anchors": ["dandy-cli/src/automata.rs: Automata::test_equivalence"]}
{"id": "C49", "title": "CLI minimized check is correct", "statement": "With --minimized, a submitted DFA is reported Equivalent iff it is equivalent to the reference and has the minimal number of states for its language, NotMinimized iff equivalent but not minimal, NotEquivalent otherwise, whatever the kind of the reference.", "quantifier": "all references (DFA/NFA/regex) and all submitted DFAs, all hash orders", "why_tests_cant": "minimality quantifies over all DFAs", "anchors": ["dandy-cli/src/equivalence.rs: DandyTester::new, test_equivalence", "dandy-cli/src/automata.rs: test_equivalence"]}
{"id": "C50", "title": "CLI binary operation result", "statement": "The automaton computed by the union/intersection/difference/symmetric-difference commands (with or without --minimized, inputs of any kind) accepts exactly the combined language; an error about alphabets is reported iff the alphabets differ; the enumerated words are the first n words of that language.", "quantifier": "all inputs and options", "why_tests_cant": "all pairs of inputs", "anchors": ["dandy-cli/src/binary_op.rs: binary_op"]}
{"id": "C51", "title": "CLI file testing counts are correct", "statement": "In lines mode the reported a/n equals (number of accepted lines)/(number of lines) and each line is marked OK iff accepted; in files mode OK is reported iff all lines are accepted, else the first rejected line is named.", "quantifier": "all automata, all files", "why_tests_cant": "all files", "anchors": ["dandy-cli/src/test_files.rs: test_files"]}
{"id": "C52", "title": "CLI path shortening keeps the last n components", "statement": "last_n_components(path, Some(n)) for n>0 shows the path's last n components in order (the whole path if it has at most n), None shows the full path, 0 shows nothing.", "quantifier": "all paths, all n", "why_tests_cant": "absolute and dot-relative paths interact with PathBuf::push; false for absolute paths shown in full", "anchors": ["dandy-cli/src/main.rs: last_n_components"]}
{"id": "C53", "title": "Wasm handles are unique and never reused", "statement": "Every handle returned by load_*/…_to_… differs from every handle returned before, across all three kinds, even after deletions.", "quantifier": "all sequences of wasm API calls", "why_tests_cant": "arbitrary call histories", "anchors": ["dandy-wasm/src/lib.rs: gen_key, push_dfa, push_nfa, push_regex"]}
{"id": "C54", "title": "Wasm store behaves as a map: isolation, deletion, consumption", "statement": "A handle refers to the object it was returned for until it is deleted (or, for a regex, consumed by regex_to_nfa); operations on one handle never change what another handle denotes; operations on unknown, deleted or wrong-kind handles report failure (None/false) and change nothing; minimize_dfa changes only its own DFA and keeps its language.", "quantifier": "all sequences of wasm API calls", "why_tests_cant": "arbitrary call histories", "anchors": ["dandy-wasm/src/lib.rs"]}
{"id": "C55", "title": "Drawing places every arrow once without overlaps", "statement": "place_arrows terminates, assigns every arrow exactly one level below the returned level count, every level is used, and two arrows on the same level never overlap (they share at most an endpoint and two self-loops never coincide).", "quantifier": "all arrow lists", "why_tests_cant": "interval packing over all inputs", "anchors": ["dandy-draw/src/lib.rs: place_arrows"]}
{"id": "C56", "title": "Drawing groups arrows faithfully", "statement": "After grouping there is exactly one arrow per (source, target) pair with a transition, carrying exactly the labels of all transitions between that pair (in order); every transition of the automaton is represented and nothing else; both directions between two states stay separate.", "quantifier": "all automata, all hash orders", "why_tests_cant": "all automata", "anchors": ["dandy-draw/src/lib.rs: dfa_to_arrows, nfa_to_arrows, group_arrows, Arrow::new"]}
{"id": "C57", "title": "ASCII art never fails", "statement": "dfa_ascii_art / nfa_ascii_art produce a picture for every valid automaton without panicking.", "quantifier": "all valid automata", "why_tests_cant": "depends on label lengths relative to the layout; false for long labels", "anchors": ["dandy-draw/src/lib.rs: ascii_art"]}
{"id": "C58", "title": "Alphabet comparison is set equality", "statement": "For alphabets without duplicates, the library considers two alphabets equal iff they contain the same elements, regardless of order.", "quantifier": "all pairs of duplicate-free alphabets", "why_tests_cant": "all pairs", "anchors": ["dandy/src/util.rs: alphabet_equal"]}
{"id": "C59", "title": "Printed tables are aligned", "statement": "In the output of to_table every column starts at the same character offset in every row (measured in characters), so the table is readable whatever the cell contents.", "quantifier": "all tables", "why_tests_cant": "all contents", "anchors": ["dandy/src/table/mod.rs: Table::push_row, to_string"]}
{"id": "C60", "title": "Acceptance of texts by grapheme clusters", "statement": "accepts_graphemes of a text holds iff the list of its grapheme clusters is a word of the language; graphemes_only says exactly that each alphabet element is one cluster; an element made of several clusters never contributes to acceptance; automata built from parsed regular expressions only have single clusters in their alphabet, and they accept a text iff its list of clusters is in the language of the expression. The documentation claims that graphemes_only makes accepts_graphemes interchangeable with accepts; that fails when elements join to one cluster.", "quantifier": "all automata, all texts, all segmentations whose clusters are non-empty, make up the text and are single clusters when alone", "why_tests_cant": "all texts and all Unicode segmentations", "anchors": ["dandy/src/dfa/mod.rs: graphemes_only, accepts_graphemes", "dandy/src/nfa/mod.rs: graphemes_only, accepts_graphemes"]}
{"id": "C61", "title": "The command line tool loads exactly the legal texts", "statement": "Loading an automaton given as DFA, NFA or regular expression text, directly or from a file, succeeds exactly for the texts of legal tables or expressions; the loaded automaton is the described one; otherwise an error is reported and nothing else happens.", "quantifier": "all argument values, all file contents", "why_tests_cant": "all texts", "anchors": ["dandy-cli/src/main.rs", "dandy-cli/src/automata.rs"]}
{"id": "C62", "title": "Enumeration prints exactly the first n words", "statement": "The enumerate command prints exactly the first n words of the language in length-lexicographic order (all of them if there are fewer), for every kind of input automaton.", "quantifier": "all automata texts, all n", "why_tests_cant": "all languages and all n", "anchors": ["dandy-cli/src/main.rs: enumerate"]}
{"id": "C63", "title": "The output file has the same content as the printed output", "statement": "With --out the file contains the lines that are otherwise printed. (False: the lines are joined without line ends; for lines that are not empty and have no line ends of their own it is true exactly if there is at most one.)", "quantifier": "all commands and outputs", "why_tests_cant": "all outputs", "anchors": ["dandy-cli/src/main.rs: 298-303"]}
{"id": "C64", "title": "The ASCII picture of an automaton is determined by the automaton", "statement": "Drawing the same automaton twice as ASCII art gives the same picture. (False: the arrows are taken from a hash map, and the order decides about levels. True if no two arrows have the same right end; otherwise the two pictures show the same arrows and end with the same line of states.)", "quantifier": "all automata, all iteration orders", "why_tests_cant": "the order changes from run to run", "anchors": ["dandy-draw/src/lib.rs: group_arrows, place_arrows, ascii_art"]}
{"id": "C65", "title": "The ASCII picture determines the automaton", "statement": "Automata with different languages have different ASCII pictures. (False: the initial state is not marked, and the elements on loops are not shown. True for automata that agree in these two, if names and elements have no blanks, bars and line ends and the labels fit: everything else can be read off the picture.)", "quantifier": "all pairs of automata", "why_tests_cant": "all pairs of automata", "anchors": ["dandy-draw/src/lib.rs: ascii_art"]}
{"id": "C66", "title": "The drawing shows the whole automaton", "statement": "Drawing never fails. The texts drawn are exactly the names of the states, each in the centre of its circle, and one label for each pair of states with transitions, listing all their elements. Accepting states, and only they, have a second circle; the initial state, and only it, is marked from below. Each pair of states with transitions has an arrow with its head at the target; the horizontal parts of arrows at the same height do not overlap. With the default sizes the two circles of an accepting state are well apart, and so are the circles of different states.", "quantifier": "all valid automata, all orders of the hash map, all sensible sizes", "why_tests_cant": "all automata", "anchors": ["dandy-draw/src/lib.rs: draw, draw_dfa, draw_nfa"]}
{"id": "C67", "title": "The examples of the documentation are true", "statement": "The automata and expressions shown in the documentation of the library are parsed and accept exactly the strings the text next to them says; the operations applied to them there give what is said. (False for one remark about a regular expression.)", "quantifier": "all words, for each of the documented examples; for minimisation also all orders of hash sets", "why_tests_cant": "the languages are infinite", "anchors": ["dandy/src/lib.rs: crate documentation", "dandy/src/dfa/mod.rs: module documentation", "dandy/src/nfa/mod.rs: module documentation", "dandy/src/regex/mod.rs: module documentation"]}
{"id": "C68", "title": "The drawing backends show what is drawn, in the right colours", "statement": "Names and labels appear centred and in the text colour, circles in the circle colour and lines in the line colour, each exactly once, in order, whatever was drawn before. (False on a canvas: the last line is painted again in the text colour.)", "quantifier": "all valid automata, all orders of the hash map, all drawable sizes, all earlier states of the canvas", "why_tests_cant": "all automata and all previous states of the context", "anchors": ["dandy-draw/src/canvas.rs: CanvasDrawer", "dandy-draw/src/egui.rs: EguiDrawer", "dandy-draw/src/lib.rs: draw"]}
{"id": "C69", "title": "When drawing on a canvas panics", "statement": "Drawing an automaton on a canvas panics exactly if the horizontal scale is negative, or some state accepts and the radius of the inner circle is negative after scaling.", "quantifier": "all valid automata, all orders of the hash map, all sensible sizes, all earlier states of the canvas", "why_tests_cant": "all automata and sizes", "anchors": ["dandy-draw/src/canvas.rs: draw_circle", "dandy-draw/src/lib.rs: draw"]}
{"id": "C70", "title": "The page answers comparisons correctly, whatever was done before", "statement": "Whatever has been typed and clicked before, a click on a comparison button says \"Equivalent\" exactly if both texts are legal and describe automata with the same alphabet and language, \"Not equivalent\" if both are legal but do not, and \"Fix errors first!\" otherwise, with an error line for exactly those texts that are not legal; nothing else on the page changes and no click ever throws.", "quantifier": "all histories of edits and clicks, all texts, all orders of hash sets", "why_tests_cant": "unboundedly many histories and texts; languages are infinite", "anchors": ["website/index.html: checkDfaEq, checkNfaEq", "dandy-wasm/src/lib.rs"]}
{"id": "C71", "title": "The page converts and minimizes correctly, whatever was done before", "statement": "A click on a converting button writes, for every legal text, a text into the output area that can be read back: of a DFA with the language of the NFA, of a minimal DFA with the language of the DFA, or of an NFA with the language of the expression (if its elements can be written in tables); otherwise the error is shown. (False for NFAs without elements; these, and expressions with elements that cannot be written, are the only exceptions.)", "quantifier": "all histories of edits and clicks, all texts, all orders of hash sets", "why_tests_cant": "unboundedly many histories and texts; languages are infinite", "anchors": ["website/index.html: nfaToDfa, minimizeDfa, regexToNfa", "dandy-wasm/src/lib.rs"]}
{"id": "C72", "title": "Outputs of the page can be pasted into its inputs", "statement": "Minimizing a DFA and comparing the text with the result says \"Equivalent\"; converting an expression to an NFA, that to a DFA, and minimizing it by pasting the outputs gives a minimal DFA with the language of the expression, if the expression has an element and its elements can be written in tables.", "quantifier": "all histories of edits and clicks, all texts, all orders of hash sets", "why_tests_cant": "compositions over all texts", "anchors": ["website/index.html", "dandy-wasm/src/lib.rs"]}
{"id": "C73", "title": "The page deletes the objects it makes", "statement": "After a click, the wasm module keeps exactly the objects it kept before. (False: some buttons leave an object behind, so the memory grows without bound; the theorem says exactly how many.)", "quantifier": "all histories of edits and clicks, all texts", "why_tests_cant": "unbounded histories", "anchors": ["website/index.html: all functions", "dandy-wasm/src/lib.rs: DFAS, NFAS, REGEXES"]}
{"id": "C74", "title": "The page draws the NFA in the text area", "statement": "A click on the drawing button paints the NFA of the text on the canvas; for a text that is not legal the canvas stays and the button shows the error. (Partial: the drawing is added to earlier ones.)", "quantifier": "all histories of edits and clicks, all texts, all orders of the hash map", "why_tests_cant": "unbounded histories and all automata", "anchors": ["website/index.html: visualizeNfa", "dandy-wasm/src/lib.rs: draw_nfa", "dandy-draw/src/canvas.rs"]}
{"id": "C75", "title": "Answers of the page do not depend on its history", "statement": "What a button answers (its text, its error report and, for a legal text, its output) depends only on the texts it reads. The text of an area changes only by an edit of an input area or, for an output area, by a click on its own button; an edit of an input area changes nothing else.", "quantifier": "all pairs of histories of edits and clicks, all texts, all orders of hash sets", "why_tests_cant": "pairs of unbounded histories", "anchors": ["website/index.html: all functions", "dandy-wasm/src/lib.rs"]}
{"id": "C76", "title": "The program reports exactly the failures", "statement": "The program never panics. If the output file is none of the inputs, standard error is empty exactly if the output file could be created and the command succeeded; otherwise it has the complaint about the output file (after which the command runs as if none was given), and one message naming the command and telling the first reason if the command had to fail: an input that cannot be read or is not a legal text, different alphabets, an option that is not allowed. For an input that is not legal the reason is the first defect, or the place where no table or expression can be read on. (False for the exit status: it is 0 for every failing command.)", "quantifier": "all commands, options and files, all orders of hash sets", "why_tests_cant": "unboundedly many files; failure is defined semantically", "anchors": ["dandy-cli/src/main.rs: main, Error", "dandy-cli/src/automata.rs: LoadError"]}
{"id": "C77", "title": "--out and --less-logs do not change what is computed", "statement": "With --out the console shows what it shows without; the file then has exactly the output lines, and no other file changes. --less-logs removes exactly the log lines from the console and changes nothing else. (False if the output file is an input: its content is lost before it is read, and a comparison with it always says EQUIVALENT.)", "quantifier": "all commands, options and files (different paths may name the same file), all orders of hash sets", "why_tests_cant": "relates two runs for all commands and all states of the file system", "anchors": ["dandy-cli/src/main.rs: main", "dandy-cli/src/binary_op.rs", "dandy-cli/src/test_files.rs"]}
{"id": "C78", "title": "Results written by the program can be used as input", "statement": "The output file of a binary operation is a text of a DFA with the alphabet of the first input and the combined language (minimal with --minimized), so that enumerating it in a second run prints the first words of the combined language. The console shows the right words, verdicts and test reports for all commands, the verdicts on one line per file. (The first is false exactly if the first input has no elements or elements such as # that cannot be written in tables, the last if a tested file cannot be parsed: it can forge lines of the report.)", "quantifier": "all files, operations, options and amounts, all orders of hash sets of both runs", "why_tests_cant": "compositions over all automata; languages are infinite", "anchors": ["dandy-cli/src/main.rs: main", "dandy-cli/src/binary_op.rs", "dandy-cli/src/enumerate.rs", "dandy/src/table.rs"]}
{"id": "C79", "title": "The library's randomized tests never fail", "statement": "Each property test of the library passes for every input its generators can produce, of any size: tables of generated automata are read back, minimization and conversions preserve languages, DFA and NFA operations agree with acceptance of every string, inversion is complementation, epsilon and unreachable-state removal preserve languages, and the words of an automaton and of its complement together are all words, in order (for any number and length, and the comparing loop ends). Generated regular expressions agree with a second engine that implements the documented grammar, and survive printing.", "quantifier": "all automata, strings and expressions of the generators without their size limits; all orders of hash sets; any segmentation that separates ASCII letters", "why_tests_cant": "the tests sample some hundred inputs of bounded size; a failure may be rare, depend on hash order, or need larger inputs", "anchors": ["dandy/src/tests.rs"]}
{"id": "C80", "title": "The window shows the DFA submitted last", "statement": "The program with a window starts without a panic, prints two pictures, and shows the example DFA. After any sequence of edits and clicks no frame panics, and each frame shows exactly one drawing of the DFA whose table was in the text area at the last click of \"Render\" (the example before the first click), with all states, transitions, marks and colours, shifted by (20, 150); if that text is not a table of a DFA nothing is drawn. Typing alone changes nothing in the drawing.", "quantifier": "all sequences of frames with arbitrary edits and clicks, all orders of hash maps in every frame", "why_tests_cant": "histories of user actions are unbounded, and every text may be typed", "anchors": ["dandy-egui/src/main.rs: main", "dandy-egui/src/main.rs: test_ascii_draw", "dandy-draw/src/egui.rs", "dandy-draw/src/lib.rs: draw_dfa_with_opts"]}
{"id": "C81", "title": "Parse errors point at the first wrong place", "statement": "The three parsers return an error exactly for the texts that are not in the format. The error of a table is the rest of the text from a place in the first wrong line, with a code: everything before that line is right, what precedes the place within the line can be completed to a right line, and what the code says is missing there (a name, blanks, an end of line, a brace) is indeed missing; after the first state line the place is right after the longest part that is a table. The error of a regular expression is what follows the longest beginning of the trimmed text that is an expression (which then starts with one of | * + \\ ( )), or the whole trimmed text if no beginning is an expression.", "quantifier": "all texts, all segmentations into grapheme clusters", "why_tests_cant": "where a backtracking parser reports an error depends on all alternatives tried; tests only check some texts, and mostly only that there is an error", "anchors": ["dandy/src/parser/mod.rs", "dandy/src/parser/fa.rs", "dandy/src/parser/regex.rs"]}
{"id": "C82", "title": "The operations obey exactly the laws of propositional logic", "statement": "Take any two expressions built from automata with one common set of elements by inversion, union, intersection, difference, symmetric difference, minimisation, merging, removal of unreachable states, conversion between DFA and NFA, removal of epsilon moves and NFA union and intersection. If the corresponding formulas are equivalent in propositional logic (De Morgan, distributivity, absorption, and so on), then calling the library as either expression says never fails, and equivalent_to answers true for the two results, also when inputs are replaced by equivalent ones and for every iteration order of hash sets in every single call. If the formulas are not equivalent, there are automata for which the answer is false. A contradictory expression gives a DFA without reachable accepting state. equivalent_to is an equivalence relation.", "quantifier": "all expressions, all automata with a common set of elements, all iteration orders of hash sets in each call", "why_tests_cant": "there are infinitely many expressions and laws; the randomized tests try a few laws on random automata", "anchors": ["dandy/src/dfa/mod.rs", "dandy/src/nfa/mod.rs"]}
{"id": "C83", "title": "Sizes of results", "statement": "The NFA of a regular expression has a number of states linear in the length of its text: at most 4n-1 for n characters. Products of NFAs with n and m states have at most nm+n+m states, removing epsilon moves and optimising add at most one state, minimising and merging none. Determinising may be exponential, and this cannot be avoided: there are expressions of 5k+7 characters for which every DFA has at least 2^(k+1) states. (The first sentence is false for expressions with nested +, which the parser copies: 3k+1 characters can give more than 2^k states; without + it is true, and with p plus signs the number of states is at most (4n-3)2^p+2.)", "quantifier": "all texts of regular expressions, all segmentations into grapheme clusters, all NFAs and DFAs, all iteration orders of hash sets, all k", "why_tests_cant": "growth is a statement about all inputs; tests only see small ones, and the bad growth is hidden in a clone inside the parser", "anchors": ["dandy/src/parser/regex.rs", "dandy/src/regex/mod.rs", "dandy/src/nfa/mod.rs", "dandy/src/dfa/mod.rs"]}
{"id": "C84", "title": "When the enumeration of words ends", "statement": "The iterators over the words of an NFA (words, word_components, word_component_indices) end exactly if the language is finite, and the number of words yielded before the first None is then the number of words of the language; over an infinite language they never return None. The language is finite exactly if every accepted word has fewer elements than there are states, and then it has at most 1 + a + ... + a^(n-1) words for a elements and n states; it is infinite exactly if some accepted word has at least n but fewer than 2n elements; it is nonempty exactly if some accepted word has fewer than n elements. The first item is None exactly if has_reachable_accepting_state is false.", "quantifier": "all NFAs (without epsilon moves for the iterators), all DFAs, all numbers of calls", "why_tests_cant": "that an iterator never ends, or that a finite list of words is all there is, is a statement about infinitely many calls or words; a test can only look at the first few", "anchors": ["dandy/src/nfa/words.rs", "dandy/src/nfa/mod.rs:1015-1050"]}
{"id": "C85", "title": "Enumerating words does not blow up", "statement": "Creating an iterator over the words of an NFA and taking the first k items does at most 31 (k+1)^3 (s+1)^5 elementary steps, where s is the size of the NFA (elements, states, entries of the transition table and their targets): there is no exponential blowup as in the conversion to a DFA. The j-th item (from 0) has fewer than (j+1) n elements for n states.", "quantifier": "all NFAs, all numbers of items", "why_tests_cant": "growth is a statement about all sizes, and timings of a few inputs cannot tell polynomial from exponential", "anchors": ["dandy/src/nfa/words.rs", "dandy/src/nfa/mod.rs:1012-1050"]}
{"id": "C86", "title": "Running the same thing again gives the same result", "statement": "The library uses hash tables whose iteration order changes from run to run. Removing unreachable states gives the same automaton in every run. Unions, intersections, differences and symmetric differences of DFAs, and the NFA product, give in every run the same automaton up to names, and the same names too if no name in one of the operands contains a comma (for NFAs: and no state is called none); states are then named after the pair they stand for. Removing epsilon moves and optimize give the same automaton up to the order in which targets are listed, and the subset construction does not see the difference. Without --minimized the set operations of the command line tool on DFA files print the same in every run, if no name in one of the files contains a comma. Minimization is in general reproducible only up to isomorphism, and so is what is printed with --minimized; it gives the same automaton, and the same names of states, in every run exactly if any two reachable states are told apart by some word.", "quantifier": "all automata, all iteration orders of the hash tables in both runs", "why_tests_cant": "the orders are chosen at random at run time; two equal outputs say nothing about the next run", "anchors": ["dandy/src/dfa/mod.rs", "dandy/src/nfa/mod.rs", "dandy/src/util.rs", "dandy-cli/src/main.rs"]}
{"id": "C87", "title": "The drawing determines the automaton", "statement": "If the drawings of two automata look the same (the same circles, texts and lines, whatever the order in which they were drawn and the order in which the hash map gave the arrows), the automata have the same states with the same names, accepting and initial, the same labels between any two states (loops included) and the same language. Conditions: elements have no blanks and are not ε, and the options draw tips in the middle of arrows (the default) with arms of some length. Each condition is necessary: without it two drawings of different automata can look the same. The same holds for what has been painted on an empty canvas or with egui, even in other colours.", "quantifier": "all pairs of valid DFAs and of valid NFAs, all iteration orders, all sensible sizes, all states of the canvas context", "why_tests_cant": "it is about all pairs of automata and all iteration orders", "anchors": ["dandy-draw/src/lib.rs: draw, draw_dfa_with_opts, draw_nfa_with_opts"]}
{"id": "C88", "title": "No warnings about internal errors", "statement": "While it compares automata, the command line tool prints nothing to standard error, whatever the files contain and whatever the arguments are. In particular its warnings that --minimized is ignored, and that something is most likely an internal error of which a bug report should be sent, never appear: whenever --minimized is accepted, minimality is really checked. Standard error consists of the two lines about an output file that cannot be created and of one line beginning with 'Error in'.", "quantifier": "all commands with all arguments, all contents of the files, all iteration orders", "why_tests_cant": "the warnings are in branches that no test reaches; that no input reaches them is a statement about all inputs", "anchors": ["dandy-cli/src/automata.rs: test_equivalence", "dandy-cli/src/equivalence.rs: DandyTester::new", "dandy-cli/src/binary_op.rs", "dandy-cli/src/main.rs"]}
{"id": "C89", "title": "The example files are what their names say", "statement": "The example files in dandy-cli/tests: correct.dfa, correct_minimized.dfa, same.regex and nfa1.nfa describe exactly the words over a and b with an even number of a's, and the second is minimal; init_b.dfa the words beginning with b and term_a.dfa the words ending with a; determinising example2.nfa gives the DFA of its comment and of eq_example2_nfa.dfa up to names; example3.nfa has the same language. For the example tree the equivalence command prints Equivalent, Not Equivalent, Failed to validate and Failed to parse as the file names say, with --minimized also 'but not minimized' for correct.dfa. (dfa1.dfa is not a DFA: it has two rows for one state.)", "quantifier": "all words; all segmentations that break between ASCII characters; all places of the files and all iteration orders", "why_tests_cant": "that two descriptions agree on all words cannot be settled by trying words", "anchors": ["dandy-cli/tests/example_tree", "dandy-cli/tests/*.dfa, *.nfa", "dandy/tests/test_files", "dandy-cli/src/equivalence.rs: equivalence"]}
{"id": "C90", "title": "How product_construction calls its combinator", "statement": "The combinator given to product_construction (an FnMut, so it may keep a state, count or log) is called exactly once for every pair of states in which the two automata can be after the same word (for NFAs: pairs of outcomes of runs, None if the run is stuck, never two Nones), the first call being for the two initial states. Which calls are made and in which order depends neither on the answers nor on hash iteration order. State i of the result is the pair of the i-th call, state 0 is its initial state, and state i is accepting iff the i-th answer was true. If the alphabets differ the combinator is not called. A combinator without a state gives the product of C08 and C23.", "quantifier": "all pairs of valid automata, all combinators with any type of state, all initial states of the combinator, all hash iteration orders", "why_tests_cant": "a test tries one combinator on one pair of automata; effects in the combinator could depend on the history of calls", "anchors": ["dandy/src/dfa/mod.rs: Dfa::product_construction", "dandy/src/nfa/mod.rs: Nfa::product_construction"]}
{"id": "C91", "title": "Parsing takes linear time: no catastrophic backtracking", "statement": "Parsing the text of a DFA or NFA table takes a number of steps that is linear in the length of the text, whether it is accepted or rejected; the alternatives and repetitions never read the same text again and again. For regular expressions the same holds, also with unclosed parentheses, as long as no group is followed by + (it would also be claimed for all texts, but nested groups with + are copied by the parser, so 3k+1 characters can take 2^k steps); in general the steps are at most quadratic times 2^p, p being the number of occurrences of )+.", "quantifier": "all texts, accepted or not; for expressions all grapheme segmentations", "why_tests_cant": "a test measures some texts; a pattern of text on which a backtracking parser explodes is found only by looking for it", "anchors": ["dandy/src/parser/mod.rs: dfa, nfa, regex", "dandy/src/parser/fa.rs", "dandy/src/parser/regex.rs"]}
{"id": "C92", "title": "Running time of the DFA algorithms", "statement": "On a DFA with n states over k letters, finding the reachable states takes a number of steps linear in the size of the table, removing the unreachable states at most O(k n^2), computing the classes of equivalent states and minimizing at most O(n^3 + k n^2); a product of two DFAs takes O(k^2) steps per state of the result, and equivalent_to takes at most O(k^2) steps per pair of states. None of these loops can run longer because of the order of hash iteration. Conversely the product of the numbers of states is really needed by equivalent_to: there are equivalent DFAs with n+1 and n+2 states over one letter for which it visits all (n+1)(n+2) pairs, although both have a minimal form with one state.", "quantifier": "all valid DFAs and pairs of DFAs, all hash iteration orders; for the lower bound all n", "why_tests_cant": "a test measures some automata; the worst case over all automata of a size is not among them unless it is looked for", "anchors": ["dandy/src/dfa/mod.rs: Dfa::equivalent_to, Dfa::product_construction, Dfa::minimize, Dfa::merge_nondistinguishable_states, Dfa::state_equivalence_classes_idx, Dfa::remove_unreachable_states, Dfa::reachable_state_idx, Dfa::has_reachable_accepting_state"]}
{"id": "C93", "title": "Running time of the NFA algorithms", "statement": "Write T for the size of the transition table of an NFA (states, epsilon transitions, entries and targets), n for its states, k for its letters. accepts takes O(T^2) steps per letter of the word, however nondeterministic the NFA is; finding or removing the unreachable states takes O(n T) steps; remove_epsilon_moves and optimize O(n^2 T); union O((T+T')^2); a product O(T T'). to_dfa takes O(k T^2) steps per state of the result, and equivalent_to O(k (T+T')^2) per pair of states of the two results of to_dfa. None of these can run longer because of hash iteration order. For to_dfa and equivalent_to this really can be exponential, even when comparing an NFA with itself: there are regular expressions of 5k+7 characters for which both take at least 2^(k+1) steps.", "quantifier": "all valid NFAs and pairs of NFAs, all words, all hash iteration orders; for the lower bound all k and all grapheme segmentations that separate letters", "why_tests_cant": "a test measures some automata; the worst case over all automata of a size is not among them unless it is looked for", "anchors": ["dandy/src/nfa/eval.rs: NfaEvaluator::step, NfaEvaluator::step_multiple, NfaEvaluator::step_all, include_closure", "dandy/src/nfa/mod.rs: Nfa::accepts, Nfa::to_dfa, Nfa::equivalent_to, Nfa::union, Nfa::product_construction, Nfa::remove_unreachable_states, Nfa::remove_epsilon_moves, Nfa::optimize, Nfa::closure"]}
{"id": "C94", "title": "Grapheme clusters by the rules of Unicode", "statement": "With grapheme clusters as in Unicode Standard Annex 29: (1) whether a word is the list of clusters of its concatenated text can be decided from its elements and its pairs of neighbours alone. (2) The advice in the documentation of graphemes_only - if it returns true, accepts_graphemes may be used instead of accepts - is right if in addition no two elements of the alphabet join to a cluster when written one after the other; then a text is accepted iff it is the concatenation of an accepted word. If two elements join there is an automaton with graphemes_only which accepts the two elements with accepts, but no text with accepts_graphemes. (3) For ASCII text without CR LF, accepts_graphemes works character by character. (4) A non-empty text without reserved characters and surrounding white space, in whatever script, is a regular expression whose automaton accepts with accepts_graphemes exactly this text. (5) A reserved character directly after a character with the property Prepend loses its meaning in a regular expression.", "quantifier": "all tables of character properties that are consistent as those of Unicode are, all automata, words and texts", "why_tests_cant": "the tests use letters only; the rules look back over unboundedly many characters (flags, conjuncts, emoji sequences), and the tables change with each version of Unicode", "anchors": ["dandy/src/dfa/mod.rs: Dfa::graphemes_only, Dfa::accepts_graphemes", "dandy/src/nfa/mod.rs: Nfa::graphemes_only, Nfa::accepts_graphemes", "dandy/src/parser/regex.rs: one_cluster", "dandy/Cargo.toml: unicode-segmentation"]}
{"id": "C95", "title": "Command lines are read as documented, and all arguments can be given", "statement": "The dandy command runs with given arguments exactly if the command line is one of the ways to write them: --out/-o and --less-logs, the name of a command, and the options of that command (--name value, --name=value, -x value, -xvalue, -x=value, letters of flags together, an option with a value last) mixed with its other arguments, everything after -- being an argument; no option twice; types dfa, nfa, regex; numbers below 2^64. Every other command line is turned down without running a command. No command line has two readings. Every combination of arguments can be written, including paths and expressions that begin with a dash, except empty paths and larger numbers. The order of options and their position among the other arguments do not matter, but --out and --less-logs after the name of the command are turned down. An expression for enumerate-regex that begins with a dash (and is longer) must follow --. The letter -t is the type of automata for equivalence and the operations, but test-file -t nfa and enumerate -t nfa are turned down. The examples in the source are read with the types the file names suggest. dandy --out f union a b followed by dandy --less-logs enumerate -a n f prints the first n words of the union (likewise for the other operations).", "quantifier": "all lists of words on the command line, all arguments", "why_tests_cant": "there are no tests of the command line, and infinitely many command lines and ways to combine options", "anchors": ["dandy-cli/src/main.rs:18-281 (DandyArgs, Operation, EquivalenceArgs, BinaryOpArgs, EnumerateRegexArgs, EnumerateFileArgs, TestFileArgs, TestType)", "dandy-cli/src/main.rs:284 DandyArgs::parse", "dandy-cli/src/automata.rs:29-35 AutomataType"]}
{"id": "C96", "title": "Cleaning up removes exactly what is documented, and a second time nothing", "statement": "For an NFA with epsilon moves, remove_epsilon_moves leaves exactly the states that are not dead, in their order and with their names and acceptance, where a state is dead exactly if it is neither initial nor accepting and every way to read an element and then follow epsilon moves leads to a dead state, that is, if reading elements one can neither get from it to an accepting state or the initial state nor walk on for ever. A new initial state is added exactly if another state that is not dead can be reached from the initial state by epsilon moves; then the old one is treated like the other states, the new one has its name if the old one is gone and otherwise a name not used so far, it is accepting exactly if the empty word is accepted, nothing leads to it, and it has the transitions that begin with epsilon moves from the old one. Between states that are left there is a transition for an element exactly if the old automaton could read that element and then take epsilon moves between them. remove_epsilon_moves leaves an NFA as it is exactly if it has no epsilon moves, remove_unreachable_states leaves a DFA or NFA as it is, to the last detail, exactly if all states are reachable, optimize exactly if both hold; so the first two change nothing the second time. One run of optimize may leave unreachable states; after two runs it changes nothing.", "quantifier": "all valid automata, all hash iteration orders", "why_tests_cant": "the tests check the language of results for some random automata, never which states and transitions are left", "anchors": ["dandy/src/nfa/mod.rs:678-684 optimize", "dandy/src/nfa/mod.rs:686-887 remove_epsilon_moves", "dandy/src/nfa/mod.rs:951-954 remove_unreachable_states", "dandy/src/dfa/mod.rs:672-675 remove_unreachable_states"]}
{"id": "C97", "title": "What the benchmarks measure", "statement": "All files of the benchmarks can be read, and all their DFAs have the same elements. The four measured set operations return DFAs with the languages that their names say. The compiled regular expression accepts exactly its sixteen words, and for every string, not only those from the generator, the measured check answers whether the whole string is one of these words, as the expression ^(…)$ given to the crate regex does; so both sides of this benchmark do the same. The equivalence check is measured on two DFAs which already differ in the acceptance of the empty word: it is over after one pair of states, and its work is the same for all DFAs with six elements that differ there, whatever their states, so this benchmark measures nothing of the search. The tree of an ASCII regular expression does not depend on the segmentation into grapheme clusters.", "quantifier": "all strings, all words, all iteration orders of hash sets, all segmentations that follow the rules for ASCII, all pairs of DFAs that differ in the empty word", "why_tests_cant": "benchmarks check no result; that two programs answer the same for all strings, and that the work does not depend on the automata, are statements about infinitely many inputs", "anchors": ["dandy/benches/benchmark.rs: powerset, equivalence_check, regex_compile, regex_check", "dandy/benches/example_dfas", "dandy/benches/example_regexes", "dandy/src/dfa/mod.rs: equivalent_to", "dandy/src/parser/regex.rs"]}
{"id": "C98", "title": "How deep the recursion for regular expressions goes", "statement": "Parsing a text as a regular expression never has more calls of the recursive parser active at once than the text has opening parentheses, and one more, whether or not the text is a regular expression. If no parenthesis or backslash is hidden inside a grapheme cluster (true of all ASCII texts without carriage returns, and by the rules of Unicode of all texts without a character of the property Prepend) there are never more than parentheses open at once, and one more; for regular expressions it is exactly this number. So the stack does not grow with the length of the text, the number of alternatives, or the number of groups one after the other. The tree of an expression, and with it the recursion of to_nfa, to_string, clone and of dropping it, is as deep as the longest chain of parts of parts, and at most four times as deep as that of the parser, and one more. Nothing limits the depth: for every n there is an accepted expression with 2n+1 characters, and a rejected text with n characters, that need n+1 calls at once, and n nested stars have a tree of depth n+1.", "quantifier": "all texts, all segmentations into grapheme clusters, all n", "why_tests_cant": "a stack overflow aborts the test process, and which depth overflows depends on the machine; that only nesting costs stack is a statement about all texts", "anchors": ["dandy/src/parser/regex.rs: expression, alternation, sequence, par_expr", "dandy/src/parser/mod.rs: regex", "dandy/src/regex/mod.rs: to_nfa, to_string, tree_to_nfa, build_string, RegexTree"]}
{"id": "C99", "title": "How long the texts are that are written, and how much work to_nfa is", "statement": "to_string of an expression parsed from n characters (without white space at the ends) writes at most 2n+1 characters if there is no +, and in general at most (2n+1)*2^p with p occurrences of +; k nested + in 3k+1 characters are written with at least 2^k. The table of a valid DFA with n states and k elements, whose names and elements have at most W characters, has at most (n+1)*((k+1)*(W+1)+6) characters, with either kind of arrow; the table of a valid NFA whose sets of targets have at most T states at most (n+1)*((k+1)*((T+1)*(W+1)+3)+W+7). One long name makes every line of the table long. The ASCII picture of a valid automaton whose labels fit has at most 2n^2+1 lines of at most (w+7)(n+1) characters, for every order in which the arrows are placed. to_nfa takes at most S(3D+3k+6) steps for an NFA with S states and k elements of an expression nested D deep, so at most quadratically many in the length of a text without +; for k nested stars in 3k+1 characters it takes at least k(k+1)/2; and it always takes at least a step for each state and each entry of the table made, and one for each state and each part of the expression around it.", "quantifier": "all texts and segmentations, all expressions, all valid automata, all W, T and w, all orders of the arrows, all k", "why_tests_cant": "a growth rate is a statement about inputs of every size; tests measure a few sizes, and the exponential and quadratic cases only show on particular families", "anchors": ["dandy/src/regex/mod.rs: to_nfa, tree_to_nfa, to_string, build_string", "dandy/src/table/mod.rs: Table", "dandy/src/dfa/mod.rs: to_table, ascii_table", "dandy/src/nfa/mod.rs: to_table, ascii_table", "dandy-draw/src/lib.rs: the functions that make ASCII art"]}
{"id": "C100", "title": "Floating point does not distort drawings", "statement": "draw_dfa and draw_nfa compute coordinates with f32. If all lengths and scales of the options are integers, of at most L and S, and the automaton is valid and has at most N states and fewer than N pairs of states with a transition, with L*(6N+13)*S at most 2^24, then every call of the drawer has exactly the coordinates that exact arithmetic gives, whatever the rounding mode. For the default options this holds up to N = 55921, for the options of the program with a window up to N = 18639. Whatever the options, the size and the rounding, the calls, their order, the texts and the colours are the ones of exact arithmetic. A bound is necessary: with the default options and more than 838861 states the drawing is never exact.", "quantifier": "all roundings that keep numbers of f32 (in particular to nearest, ties to even), all options with integer lengths and scales, all valid DFAs and NFAs within the bound, all iteration orders", "why_tests_cant": "a test compares a few drawings; that no intermediate result of any drawing within the bound is rounded is a statement about every sum and product that occurs", "anchors": ["dandy-draw/src/lib.rs: draw, draw_dfa_with_opts, draw_nfa_with_opts, OffsetScaleDrawer, DrawOptions", "dandy-draw/src/pos2.rs: Pos2", "dandy-egui/src/main.rs: the options of the drawing"]}
{"id": "C101", "title": "Handles of the wasm bindings with 32 bits", "statement": "In a browser a handle has 32 bits. As long as fewer than 2^32 - 1 handles have been created, every session of calls has exactly the results and objects it would have with unbounded handles, so all that is said about handles and about the page holds. With overflow checks a session that creates more panics, and nothing else changes. Without them (as the page is built) no session panics; the handles are 1, 2, 3, ... modulo 2^32 in the order of creation; and after 2^32 creations a new object gets the handle of a live object and replaces it.", "quantifier": "all sessions of calls of any length, all texts and canvases, with and without overflow checks", "why_tests_cant": "a test would have to make more than four thousand million calls to reach the end of the counter", "anchors": ["dandy-wasm/src/lib.rs: KEYGEN, gen_key, push_dfa, push_nfa, push_regex and all exported functions", "dandy-wasm/build.sh"]}
{"id": "C102", "title": "The website and the program agree about the same files", "statement": "Two DFA (or NFA) tables in files are compared by `dandy equivalence` with the first one as the reference, and by pasting them into the areas of the website and clicking the button, whatever has been done on the page before. If every carriage return in the files belongs to a line end \\r\\n, then the page says that they are equivalent exactly if the program does, that they are not exactly if the program does, and that there are errors exactly if the program reports an error about the reference or the file. A DFA minimized on the page and saved (with line ends of either kind) passes `dandy equivalence --minimized` against the original; an NFA with at least one element converted to a DFA, and an expression (without carriage returns, elements that can be written in tables) converted to an NFA, pass against the original. Exceptions: the page takes lone carriage returns for line ends and the program does not; an NFA without elements is converted to a text the program rejects.", "quantifier": "all texts of the files, all histories of the page, all iteration orders of hash sets on both sides", "why_tests_cant": "a test compares the two programs on a few files; agreement on all texts, including wrong ones and both kinds of line ends, is a statement about two parsers' inputs after different treatment", "anchors": ["website/index.html: checkDfaEq, checkNfaEq, minimizeDfa, nfaToDfa, regexToNfa", "dandy-cli/src/equivalence.rs: equivalence", "dandy-cli/src/main.rs: main", "dandy/src/parser/mod.rs"]}
{"id": "C103", "title": "Tables mean what splitting them into lines and words says", "statement": "For every text, the parsers of DFA and NFA tables give the result of this simple procedure, including which texts are errors: split at \\n and \\r\\n (another carriage return is an error), cut each line at the first #, split it at spaces and tabs outside braces, drop lines without words; the first line is the alphabet, each other line (at least one) an optional -> or →, an optional *, the name and at least one entry, all words being names without white space, #, braces or reserved words (or eps/ε in the alphabet of an NFA, braces around names as entries of an NFA). So texts with the same words on their lines that are not empty are read in the same way: blanks, comments, empty lines and kinds of line ends never matter.", "quantifier": "all texts", "why_tests_cant": "tests parse a few tables; that no combination of blanks, comments, empty lines, line ends and odd characters is read differently from the documentation is a statement about all texts", "anchors": ["dandy/src/parser/mod.rs", "dandy/src/parser/fa.rs"]}
{"id": "C104", "title": "How large drawings are, and whether they fit the canvas of the page", "statement": "The drawing of an automaton is as wide as its number of states says, and as high as its number of heights for arrows says. That number is at least the number of arrows (pairs of states with transitions) passing between any two neighbouring states, and at most the largest number of arrows with their right end below one arrow. Nothing is drawn outside of this rectangle, whatever the offset and scale (circles and lines as a whole, texts by their centre), and the drawing touches its left, right and lower side. On the canvas of the page (700 by 500 points) a click shows an NFA completely: false with nine or more states, or with more than 13 arrows passing between two neighbours, where something is painted outside of the canvas; true with at most 8 states and at most 13 right ends of arrows below each arrow.", "quantifier": "all valid DFAs and NFAs, all sizes in the options within reason, all orders of arrows; on the page, all histories of edits and clicks and all texts", "why_tests_cant": "the heights of arrows come from a layout over all arrows in an order that differs from run to run; tests draw one automaton and look at the file", "anchors": ["dandy-draw/src/lib.rs: draw, draw_dfa_with_opts, draw_nfa_with_opts", "website/index.html: visualizeNfa, canvas nfa-visualization"]}
{"id": "C105", "title": "No call on a valid automaton panics by an index, a subtraction or an unwrap", "statement": "On automata as the library makes them (from tables, texts, regular expressions and its own operations), none of the public functions of DFAs, NFAs and their evaluators panics: in every history of steps, in membership, closure, reachability, product, union, equivalence, removal of states, merging, minimization, removal of epsilon moves and conversion, every index into a vector is in range, no subtraction of unsigned numbers goes below zero, and no unwrap or (debug) assertion fails. The word iterators panic exactly on automata with epsilon moves (their 'unimplemented'), at construction, and never in a later call.", "quantifier": "all valid DFAs and NFAs, all words and texts, all histories of calls, all numbers of calls to the iterators, all iteration orders of hash sets", "why_tests_cant": "a panic needs one automaton for which an index computed through several renumberings is off; tests visit a handful of automata and one hash order each", "anchors": ["dandy/src/dfa/mod.rs", "dandy/src/dfa/eval.rs", "dandy/src/nfa/mod.rs", "dandy/src/nfa/eval.rs", "dandy/src/nfa/words.rs"]}
{"id": "C106", "title": "Reading a table takes linear time, and no automaton is larger than its text", "statement": "Reading the text of a DFA or NFA table (parser and try_from together) takes a number of steps that is linear in the length of the text, whether the text is accepted, rejected by the parser or rejected because of a defect such as a duplicate or an unknown target. A DFA read from a text with L characters has at most (L+1)/2 cells (elements, state names, targets), an NFA has at most L+1 states, entries and targets. Hence comparing two DFAs from texts of lengths L and L' takes at most O(L L') steps including the reading, minimizing one at most O(L^3), and testing a word of length w with an NFA at most O(w L^2).", "quantifier": "all texts, accepted or not; all words; all hash iteration orders", "why_tests_cant": "growth is a statement about all sizes and all kinds of defective texts; a quadratic search for duplicates shows only on tables much larger than those of tests", "anchors": ["dandy/src/parser/mod.rs: dfa, nfa", "dandy/src/dfa/parse.rs: Dfa::try_from", "dandy/src/nfa/parse.rs: Nfa::try_from", "dandy/src/dfa/mod.rs: Dfa::equivalent_to, Dfa::minimize", "dandy/src/nfa/mod.rs: Nfa::accepts"]}
{"id": "C107", "title": "The height of a drawing", "statement": "However the arrows of a drawing are arranged without overlaps, there are at least as many levels as arrows passing between a state and the next. The drawings of the library stay within a bound given by this crowding: if at most m arrows touch each state (begin, end, pass or loop there), at most m(m+1)/2 levels are used, and without loops it is enough that at most m arrows pass between a state and the next. Every level is filled as far as possible: from the arrows on it and on the higher levels one cannot choose a larger number of arrows separate from each other. The height is not always the least possible, whatever the hash order.", "quantifier": "all lists of arrows; all valid DFAs and NFAs with all sensible sizes; all hash iteration orders; all ways of arranging", "why_tests_cant": "the bound compares the result with all other arrangements of all possible arrows; a placement that wastes levels still gives correct pictures in every example", "anchors": ["dandy-draw/src/lib.rs: place_arrows", "dandy-draw/src/lib.rs: draw_dfa, draw_nfa", "dandy-draw/src/lib.rs: ascii_art"]}
{"id": "C108", "title": "The work of drawing", "statement": "Drawing a DFA or an NFA takes a number of steps at most quadratic in the number of its transitions plus the number of characters of the labels: placing the arrows handles each arrow once for every level up to its own, so if at most m arrows touch each state, placing takes besides the sorting at most m(m+1)/2 times three steps per arrow. The ASCII picture takes at most a constant times (number of arrows + 1) times (width of a line + bytes of the labels + number of transitions + 1) steps, besides three per byte of the names, also if it ends with a failure.", "quantifier": "all lists of arrows; all valid DFAs and NFAs; all options; all hash iteration orders", "why_tests_cant": "growth is a statement about all sizes; a loop over the levels that handled all arrows again for each arrow, or a line that grew with every label, would not be seen in small examples", "anchors": ["dandy-draw/src/lib.rs: place_arrows, group_arrows", "dandy-draw/src/lib.rs: draw_dfa_with_opts, draw_nfa_with_opts", "dandy-draw/src/lib.rs: dfa_ascii_art, nfa_ascii_art"]}
{"id": "C109", "title": "Counterexamples: where two automata differ, and how short the words are that tell", "statement": "If two DFAs with n and m states and the same elements are not equivalent, they already differ about a word with at most n+m-2 elements; so equivalent_to answers true exactly if both accept the same words up to that length, and testing longer words adds nothing. For NFAs the same holds with 2^n+2^m-2. Two states of a DFA with n states are in different equivalence classes exactly if a word with at most n-2 elements tells them apart. The bound cannot be improved: for all m and n with 2 <= m <= n there are DFAs that differ only from length n+m-2 on. The first word enumerated of the symmetric difference of two DFAs is the least one, by length and then by the order of the elements, on which they differ, and it has at most n+m-2 elements; there is none exactly if equivalent_to answers true. The command symmetric-difference with --enumerate 1, for files of whatever kinds, shows the least word on which they differ, or says that there are no words, exactly if they are equivalent. Two NFAs without epsilon moves over the same elements in the same order are equivalent exactly if the iterators over their words yield the same at each call; for DFAs with n and m states and a elements the first 1+a+...+a^(n+m-2) items decide it.", "quantifier": "all pairs of valid DFAs and NFAs with the same elements, all hash iteration orders, all files and kinds for the command", "why_tests_cant": "how long the words are that have to be tried is what a test cannot know by itself; whether every longer word is decided by the shorter ones is a statement about all automata", "anchors": ["dandy/src/dfa/mod.rs: equivalent_to, symmetric_difference, state_equivalence_classes_idx", "dandy/src/nfa/mod.rs: equivalent_to, words", "dandy-cli/src/binary_op.rs"]}
{"id": "C110", "title": "The order of lines and columns of a table does not matter", "statement": "Lines of states and columns of elements of a DFA or NFA file (and in an NFA file the targets inside braces) can be written in any order without changing what the automaton does: a table with lines and columns exchanged is accepted exactly if the original is, and the two automata have the same number of states, the same elements, the same states (by name) after every word, from the initial and from every other state, and accept the same words; equivalent_to of them answers true. More generally this holds for any two legal tables that say the same about which states exist with which marks and which targets stand in the line of a state and the column of an element.", "quantifier": "all tables, all permutations of lines and columns, all words, all states", "why_tests_cant": "a test compares a table with a few rearrangements of it and a few words; that no arrangement of any table changes any run follows only from how names are resolved", "anchors": ["dandy/src/parser/fa.rs: dfa, nfa", "dandy/src/dfa/parse.rs: TryFrom<ParsedDfa>", "dandy/src/nfa/parse.rs: TryFrom<ParsedNfa>", "README.md"]}
{"id": "C111", "title": "Files and expressions describe exactly the regular languages", "statement": "For every non-empty list of different element names, the languages accepted by the DFAs read from files with these elements are exactly the regular languages over them (accepted by a finite automaton in the sense of Mathlib): every regular language has a file, and nothing else has one. The same holds for NFA files (also without elements), with epsilon moves or not, and for the texts of regular expressions with these elements, so whatever one of the three can say the others can say too. minimize leaves exactly as many states as the language has left quotients, i.e. different ways in which words over the elements can be continued to accepted words.", "quantifier": "all lists of element names, all languages, all valid DFAs, all hash iteration orders, all rules for grapheme clusters under which the elements are clusters wherever they are written", "why_tests_cant": "it is about all languages at once, and says that something exists for each (and nothing for the others, e.g. as many a as then b)", "anchors": ["dandy/src/parser/mod.rs: dfa, nfa, regex", "dandy/src/dfa/parse.rs", "dandy/src/nfa/parse.rs", "dandy/src/regex/mod.rs: to_nfa", "dandy/src/dfa/mod.rs: minimize"]}
{"id": "C112", "title": "It does not matter which letters are used", "statement": "Writing other letters in an automaton or a regular expression (different ones for different letters) changes nothing but the letters: the result is valid and accepts exactly the words written with the other letters; invert, to_nfa, removing unreachable states, merging, minimize, removing epsilon moves, optimize, to_dfa, unions and all products give the same automaton, with the same names and order of states, in the other letters; comparisons give the same answer; the words are enumerated in the same order, with the other letters; and compiling a regular expression before or after is the same.", "quantifier": "all injective maps of strings to strings, all DFAs, NFAs and regular expressions, all hash iteration orders (the same in both runs)", "why_tests_cant": "tests use a few fixed letters; that nothing depends on the text, length or order of the elements is a statement about all alphabets and all operations", "anchors": ["dandy/src/dfa/mod.rs", "dandy/src/nfa/mod.rs", "dandy/src/dfa/eval.rs", "dandy/src/nfa/eval.rs", "dandy/src/nfa/words.rs", "dandy/src/regex/mod.rs: to_nfa"]}
{"id": "C113", "title": "Names of states are only names", "statement": "Automata which differ at most in the names of their states accept the same words, compare equal to the same automata, have the same reachable states, classes of equivalent states and enumeration of words, and the subset construction gives exactly the same DFA for both. All other operations (invert, to_nfa, removing unreachable states, merging, minimize, removing epsilon moves, optimize, unions, intersections and other products by acceptance) give results which again differ at most in names.", "quantifier": "all pairs of DFAs and NFAs differing at most in names (valid ones for products), all hash iteration orders (for products different ones in both runs)", "why_tests_cant": "names are used inside the constructions (to generate names of pairs, to find a free name); that this never influences the result needs all automata and all names", "anchors": ["dandy/src/dfa/mod.rs", "dandy/src/nfa/mod.rs", "dandy/src/nfa/words.rs"]}
{"id": "C114", "title": "What to_dfa depends on, and a normal form of automata", "statement": "to_dfa gives the very same DFA (names, order and all) for two NFAs exactly if they have the same elements in the same order, accept the same words, and whenever two words lead to the same set of states in the one they do in the other. So the order of lines in a file, the names of states, the order of targets and unreachable states do not show in the result, and converting the result once more changes nothing. minimize followed by to_nfa and to_dfa is a normal form with as few states as possible: the result is literally the same for two DFAs, whatever the iteration orders of hash sets, exactly if they have the same elements in the same order and are equivalent, and exactly then the printed tables are the same text; for NFAs and regular expressions the same holds with to_dfa before.", "quantifier": "all valid NFAs and DFAs, all pairs of legal tables, all hash iteration orders (different ones in both runs)", "why_tests_cant": "both directions speak about all automata and all pairs of words; which of the states minimize keeps and in which order depends on hash orders, so a test sees one order only", "anchors": ["dandy/src/nfa/mod.rs", "dandy/src/dfa/mod.rs", "dandy/src/nfa/eval.rs"]}
{"id": "C115", "title": "Expressions can be put together as texts", "statement": "Texts of regular expressions can be combined by writing: put in parentheses, with bars between them, one after the other, and with * and + they are again an expression, which accepts exactly the union, concatenation, repetition of what the parts accept and has the elements of the parts; a bar between two texts needs no parentheses. Replacing parts by parts that equivalent_to calls equivalent gives a whole that it calls equivalent, and every law about union, concatenation and repetition of languages holds for texts. Conditions: the parts have no white space around them and do not swallow the parenthesis after them in a grapheme cluster (by the rules of Unicode: they do not end with a character of the property Prepend; never for ASCII texts without carriage returns). Without the conditions it is false.", "quantifier": "all texts of expressions, all ways of combining them to any depth, all segmentations into grapheme clusters, all words", "why_tests_cant": "There are infinitely many texts and infinitely many ways to combine them; precedence and cluster boundaries only go wrong for particular neighbours, and that a replacement never matters is a statement about all contexts.", "anchors": ["dandy/src/parser/regex.rs: full_regex, expression, alternation, sequence, par_expr, apply_kleene", "dandy/src/parser/mod.rs: regex", "dandy/src/regex/mod.rs: to_nfa"]}
{"id": "C116", "title": "The enumeration of a combination from those of the operands", "statement": "The words listed for a combination of automata are determined, item by item, by what is listed for the operands. Leaving out of the first k items of d those words that o rejects gives exactly the first items of the intersection, leaving out those o accepts exactly the first items of the difference (same words, same order, nothing missing in between, same end). The first k words of a union are the first k of the words among the first k of the two operands, so no operand has to be listed further. If one language contains another over the same alphabet, the listing of the smaller is that of the larger with words left out. A DFA and its inverse never list the same word, and the first k words over the alphabet are all among their first k words.", "quantifier": "all pairs of valid DFAs with the same elements (the same order of elements for the union), all valid NFAs without epsilon moves, all numbers of items, all iteration orders of hash tables", "why_tests_cant": "The languages are infinite, so a listing has no end to compare with; a product or an iterator that goes wrong after many words, or only for some automata, agrees with every finite sample.", "anchors": ["dandy/src/nfa/words.rs: Words, WordComponents, WordComponentIndices", "dandy/src/dfa/mod.rs: union, intersection, difference, invert", "dandy/src/nfa/mod.rs: words, word_components, intersection"]}
{"id": "C117", "title": "Evaluators tell automata apart exactly if they are not equivalent", "statement": "equivalent_to says yes exactly if no sequence of calls of step and step_multiple on evaluators of the two automata, with any elements, known or not, ever shows a difference: the same calls return something, and is_accepting is the same after every call. So minimize, remove_epsilon_moves and optimize cannot be noticed by running the automaton. Running a DFA and the NFA made of it, or an NFA and the DFA made of it, accepts at the same moments whatever is fed, and the same calls return something up to and including the first one with an unknown element. After that they differ: step of a DFA evaluator never returns anything again, step of an NFA evaluator does for the next known element.", "quantifier": "all pairs of valid automata, all finite sequences of calls with all texts as elements, all iteration orders of hash tables", "why_tests_cant": "Indistinguishability is a statement about all sequences of calls on all pairs; tests only try some sequences, and mixing single and multiple steps, empty calls and unknown elements has unboundedly many combinations.", "anchors": ["dandy/src/dfa/eval.rs: step, step_multiple, is_accepting", "dandy/src/nfa/eval.rs: step, step_multiple, is_accepting", "dandy/src/dfa/mod.rs: equivalent_to, minimize, to_nfa", "dandy/src/nfa/mod.rs: equivalent_to, to_dfa, remove_epsilon_moves, optimize"]}
{"id": "C118", "title": "The bounds on the numbers of states are attained", "statement": "The worst cases allowed for products and determinisation really occur, for all sizes, and no other algorithm could avoid them. For all n and m there are valid DFAs with n and m states over two elements whose intersection has exactly n*m states (also the union of their inverses), minimized or not, and every valid DFA for that language has at least as many. For all n and m there are valid NFAs with n and m states whose intersection has exactly nm+n+m states, which is the maximum for products of NFAs. For every n there is a valid NFA with n states over three elements, without epsilon moves, for which to_dfa makes exactly 2^n states, minimize leaves all of them, and every equivalent DFA has at least as many.", "quantifier": "all n and m greater than zero, all iteration orders of hash tables, all other DFAs for the same language", "why_tests_cant": "It is a statement about all sizes and about all other automata for the same language; a test can only count the states of some results.", "anchors": ["dandy/src/dfa/mod.rs: intersection, union, product_construction, minimize", "dandy/src/nfa/mod.rs: to_dfa, intersection, product_construction"]}
{"id": "C119", "title": "Offset, scale and sizes act on the drawing as a whole", "statement": "Changing the offset moves the whole drawing by the same amount and changes nothing else. Multiplying both scales by a factor, or instead all the lengths in the options and the offset, gives the same drawing: the former one that many times as large, with lines as thick as before; so the drawing contains no length that the options do not control. Widths of lines and colours have no influence on what is drawn where, and switching off the tips of arrows only leaves out lines: the order of calls, circles, texts and colours stays.", "quantifier": "all automata, all options, all offsets and factors (also negative ones), all iteration orders of the hash map, in exact arithmetic", "why_tests_cant": "A test compares drawings of a few automata with a few options; a length forgotten in one place shows only for automata with the right arrows and for unusual options.", "anchors": ["dandy-draw/src/lib.rs: OffsetScaleDrawer, DrawOptions, draw_dfa_with_opts, draw_nfa_with_opts, draw", "dandy-draw/src/pos2.rs: Add, Mul"]}
{"id": "C120", "title": "Lines and circles do not touch", "statement": "In a drawing no line (arrows, their tips, the marks of the initial state) touches or crosses the circle of a state, if the vertical scale is at least the horizontal one and the sizes are sensible, for instance the default ones. This is not so for flattened drawings, since the radius of circles follows only the horizontal scale: with the default sizes and a vertical scale of 1/2 arrows reach into circles for every automaton with a transition.", "quantifier": "all valid DFAs and NFAs, all such options, all iteration orders of the hash map, all points of all lines, in exact arithmetic", "why_tests_cant": "Whether a line meets a circle depends on the number of states and arrows, and there are infinitely many automata; a test looks at a few drawings.", "anchors": ["dandy-draw/src/lib.rs: OffsetScaleDrawer::draw_circle, draw, DrawOptions"]}
{"id": "C121", "title": "Texts are not struck through and do not coincide", "statement": "In a drawing with the default options no line (arrows, their tips, the marks of the initial state) comes closer than 5 units to the centre of the name of a state or of a label, and the centres of any two texts are at least 25 units apart, horizontally or vertically. For other options these distances are given by the offsets of lines, the margin of texts and the height of floors, times the horizontal scale, if the vertical one is not smaller. A condition on the margin of texts is necessary: with a margin as high as a floor arrows go through labels.", "quantifier": "all valid DFAs and NFAs, all options satisfying the conditions, all iteration orders of the hash map, all points of all lines, in exact arithmetic", "why_tests_cant": "Labels are at the middle of arrows, so that whether an arrow passes through them depends on all other arrows; there are infinitely many automata, and a test looks at a few drawings.", "anchors": ["dandy-draw/src/lib.rs: draw, place_arrows, DrawOptions, OffsetScaleDrawer"]}
{"id": "C122", "title": "Inclusion, disjointness and universality can be decided with the operations", "statement": "There is no function for inclusion, but the operations decide it. All words of a DFA are words of another one with the same alphabet exactly if their difference has no reachable accepting state, and exactly if their union is equivalent to the other one; the latter also for NFAs. Two automata have a word in common exactly if their intersection has a reachable accepting state. An automaton accepts every word over its alphabet exactly if its inverse (for an NFA: that of its DFA) has no reachable accepting state. For texts of expressions, \"((t)|(u))\" is equivalent to \"u\" exactly if everything that t matches is matched by u and no element occurs only in t. Each of these can also be settled by testing all short words: those shorter than the product of the numbers of states (for universality the number of states, or 2^n for an NFA with n states), and for common words the product cannot be replaced by less.", "quantifier": "all pairs of valid automata with the same alphabet (in any order), all texts of expressions that can be put in parentheses, all words, all iteration orders of the hash map", "why_tests_cant": "Inclusion is a statement on infinitely many words; a test tries words, and without a proof of the bound one does not know which ones suffice.", "anchors": ["dandy/src/dfa/mod.rs: difference, union, intersection, invert, equivalent_to, has_reachable_accepting_state", "dandy/src/nfa/mod.rs: union, intersection, to_dfa, equivalent_to, has_reachable_accepting_state", "dandy/src/parser/regex.rs: fn regex"]}
{"id": "C123", "title": "Files of the wrong kind", "statement": "No text is both a table of a DFA and a table of an NFA, so a program that is told the wrong one of the two kinds reports that the text cannot be parsed. The same happens if an expression written in one line is taken for a table. A table taken for an expression, however, is not noticed in general: every text that does not consist of white space, contains no parenthesis, bar or backslash, and has no * or + at the beginning or after another one is an expression; without reserved characters it stands for exactly one word, the text itself.", "quantifier": "all texts, all segmentations into grapheme clusters", "why_tests_cant": "A test loads a few files with wrong kinds; that no text at all can be read both ways, and which texts are silently read as something else, is a statement on all texts.", "anchors": ["dandy-cli/src/automata.rs: Automata::load", "dandy/src/parser/fa.rs: full_dfa, full_nfa, dfa_line, nfa_line", "dandy/src/parser/regex.rs: full_regex"]}
{"id": "C124", "title": "Any texts can be written as an expression", "statement": "Every finite list of texts can be written as an expression that accepts exactly these texts: a backslash before every grapheme cluster, parentheses around each text, bars between the texts, ε for the empty text and ∅ for the empty list. Only clusters that end with a character of the class Prepend (which tie to whatever follows) have to be excluded. The parentheses are necessary for texts that end with white space, since white space at the end of an expression is cut off even if it is escaped, which leaves a backslash and a parse error.", "quantifier": "all finite lists of texts, all consistent Unicode tables (and all other segmentations with the stated property)", "why_tests_cant": "A test escapes a few texts; combining characters, reserved characters, white space and emoji interact with the segmentation, and the claim is that no other text is accepted, of infinitely many.", "anchors": ["dandy/src/parser/regex.rs: full_regex, escaped_char, one_cluster", "dandy/src/regex/mod.rs: Regex::to_nfa", "dandy/src/nfa/mod.rs: accepts_graphemes"]}
{"id": "C125", "title": "Messages of errors tell errors apart", "statement": "Different errors have different messages: the message of a parser determines the rest of the text at the place of the error and the kind of the error (also with quotes, backslashes, line ends and unprintable characters in the text, in both forms in which it is printed), the message about a defect of a table determines the defect with the names and numbers in it, and so do the messages of the loader for texts of one kind, of the command equivalence for all three kinds, its verdicts on files, and of the bindings for the browser. The messages of the loader do not tell DFAs and NFAs apart (both are called DFAs), and names with blanks, which only tables built by a program can have, can make messages ambiguous.", "quantifier": "all texts, all pairs of errors, all sets of characters shown unescaped, all segmentations", "why_tests_cant": "A test compares a few messages; that no two errors share a message needs that escaping can be undone for all texts and that no choice of names imitates another message.", "anchors": ["dandy/src/dfa/parse.rs: enum DfaParseError", "dandy/src/nfa/parse.rs: enum NfaParseError", "dandy-cli/src/automata.rs: enum Error", "dandy-cli/src/equivalence.rs: enum Error", "dandy-cli/src/equivalence.rs: impl Display for EquivalenceResult", "dandy-wasm/src/lib.rs: fn load_dfa"]}
{"id": "C126", "title": "Equations between expressions can be checked with letters", "statement": "If equivalent_to says that two expressions made of parts in parentheses are equivalent, some of the parts being single letters that appear nowhere else, then it also says so after each of these letters has been replaced, at all of its places, by any expression. So one comparison of two expressions with letters proves a law for all expressions, and exactly the laws that hold for all languages can be proved this way. The letters have to be different from each other and from the elements of the parts that stay.", "quantifier": "all ways to put expressions together with bars, concatenation, * and +, all choices of parts, letters and replacements, all segmentations into grapheme clusters", "why_tests_cant": "A test compares finitely many instances of a law; that one comparison with letters settles all of them is a statement on infinitely many expressions of any size.", "anchors": ["dandy/src/parser/regex.rs: fn expression", "dandy/src/regex/mod.rs: fn to_nfa", "dandy/src/nfa/mod.rs: fn equivalent_to"]}
{"id": "C127", "title": "Printing expressions is stable", "statement": "If an expression that was read from a text is printed with to_string, and the printed text is read and printed again, the second text is the first one without the white space around it; reading it gives the same tree, so from the second reading on neither the text nor the tree changes any more. If the first text does not begin or end with white space, the two texts are equal. Expressions that are printed in the same way match the same words. The conditions are those under which the language survives printing (each element begins with an unreserved character or is one reserved ASCII character, and the segmentation of the printed text gives back the elements), which hold for all ASCII characters but the carriage return. The tree read first need not be kept (parentheses around a sequence within a sequence are not printed), and with a combining mark on an escaped operator the text does change.", "quantifier": "all texts, all trees read from them, all segmentations into grapheme clusters with the stated property", "why_tests_cant": "A test prints a few expressions twice; that printing reaches a fixed point for trees of any shape and depth, with every placement of parentheses and operators, is a statement on infinitely many trees.", "anchors": ["dandy/src/regex/mod.rs: fn to_string", "dandy/src/parser/regex.rs: full_regex, expression, sequence, regex_char"]}
{"id": "C128", "title": "What can be seen from the length of an expression", "statement": "Let an expression be written with m characters other than parentheses, bars, stars and pluses. Every word with more than m elements that its NFA accepts has, within its first m elements, a nonempty part that can be left out or repeated as often as one likes, and the results are accepted too. So the language is finite exactly if no accepted word has more than m elements (and then has at most 1 + a + ... + a^m words over a elements), it is infinite exactly if a word with more than m and at most 2m elements is accepted, and if any word is accepted one with at most m elements is. The enumeration of the words, after removing the epsilon moves, ends exactly if no word with more than m and at most 2m elements is accepted. Without star and plus no accepted word has more than m elements; a star alone does not make the language infinite. For every m there is an expression for which the numbers m and 2m cannot be improved.", "quantifier": "all texts of expressions, all words, all segmentations into grapheme clusters, all iteration orders of hash sets", "why_tests_cant": "A test tries a few expressions and words; the claim is about all words beyond a length, of which there are infinitely many, for expressions of any size, and about a bound that does not depend on the (much larger) number of states of the NFA.", "anchors": ["dandy/src/parser/regex.rs: full_regex, expression, apply_kleene", "dandy/src/regex/mod.rs: fn to_nfa", "dandy/src/nfa/mod.rs: accepts, remove_epsilon_moves, word_components"]}
{"id": "C129", "title": "How many words there are of each length, and which place a word has", "statement": "The number of words of each length that a DFA accepts can be computed from its table, as a sum along the rows. Enumerating the words gives exactly that many words of the length before it gets to longer words or ends, and an accepted word comes at the place given by the number of accepted words that are smaller (fewer elements, or as many and before it in the order of the alphabet); for a DFA this number can also be computed from the table, and for any NFA (after removing its epsilon moves) from the table of its DFA. Of each length, a DFA and its inverse together accept every word once; the union and the intersection have together as many words as the operands, the difference and the intersection as many as the first operand, the symmetric difference and the intersection as many as the union. DFAs with n and m states over the same elements are equivalent exactly if their union and intersection have equally many words of each length up to n + m - 2; but DFAs with equally many words of every length need not be equivalent.", "quantifier": "all well-formed DFAs and NFAs, all lengths, all words, all numbers of enumerated items, all iteration orders of hash sets", "why_tests_cant": "A test compares the first items of a few enumerations; that nothing is lost, repeated or out of place is a statement about each of infinitely many places, and the numbers of words grow exponentially with the length.", "anchors": ["dandy/src/nfa/words.rs: WordComponents, next", "dandy/src/dfa/mod.rs: invert, union, intersection, difference, symmetric_difference, equivalent_to", "dandy/src/nfa/mod.rs: word_components"]}
{"id": "C130", "title": "Equations for unknown expressions", "statement": "Let there be an equation X = ... for each of some unknown expressions, whose right hand side is put together as a text from known and unknown expressions with parentheses, bars, stars and pluses, such that the unknown ones only occur before or after something without the empty word. Then there is at most one solution: any two families of texts for which all comparisons with their right hand sides say 'equivalent' accept the same words; and a family that is contained in its right hand sides is contained in every family that contains its own. In particular, if A does not accept the empty word, then X accepts the same words as (A)(X)|(B) exactly if it accepts the same as (A)*(B) (Arden's rule). In any case (A)*(B) is contained in every X that contains (A)(X)|(B). If A accepts the empty word there can be other solutions.", "quantifier": "all families of texts of expressions and right hand sides, of any number and size, all segmentations into grapheme clusters that end before a parenthesis", "why_tests_cant": "A test compares given texts; that a solution found by hand is the only one is a statement about all texts of expressions, and words of all lengths.", "anchors": ["dandy/src/parser/regex.rs: full_regex, expression", "dandy/src/regex/mod.rs: fn to_nfa", "dandy/src/nfa/mod.rs: equivalent_to, accepts"]}
{"id": "C131", "title": "How many states are needed", "statement": "The number of states left by minimize is the number of different ways in which words over the alphabet can be continued to accepted words, and evaluators of the minimized DFA are in the same state exactly if what they have read (in whatever steps) can be continued in the same ways. If k words over the alphabet of a DFA can pairwise be told apart by a continuation, it has at least k states. If k pairs of words fit together but not crosswise, every NFA that accepts this (as read from a file, or as result of union, intersection, to_nfa and so on) has at least k states. So an automaton with n states that accepts a^i b^i for all i up to n also accepts some a^i b^j with different i and j, and no expression, DFA or NFA accepts exactly the words a^n b^n.", "quantifier": "all well-formed DFAs and NFAs, all expressions, all words and lists of words, all sequences of calls on evaluators, all iteration orders of hash sets", "why_tests_cant": "A test can count the states of an example; that no automaton with fewer states exists, and that a language has none at all, are statements about all automata.", "anchors": ["dandy/src/dfa/mod.rs: minimize, accepts", "dandy/src/dfa/eval.rs: step, step_multiple, current_state_idx", "dandy/src/nfa/mod.rs: accepts", "dandy/src/regex/mod.rs: fn to_nfa"]}
{"id": "C132", "title": "Expressions for the states of an automaton", "statement": "Let there be a text of an expression for each state of an NFA, for each column one that accepts just its element, and for each row an end (accepting just the empty word if the state is accepting, and nothing otherwise). For a row one writes the columns before the texts of their targets, the texts of the targets of its epsilon moves, and the end, joined by bars with everything in parentheses. If the text of every state contains what one writes for its row, it accepts every word accepted from that state on. If there are no epsilon moves and the text of every state is contained in what one writes for its row, it accepts only words accepted from that state on. So if all comparisons of the texts with their rows say 'equivalent', the text of the initial state accepts exactly the words that the automaton (a DFA, or an NFA without epsilon moves) accepts. Conversely, texts that accept the right words solve the equations, with epsilon moves too. Such texts exist for every NFA whose elements are grapheme clusters wherever they are written. But with epsilon moves there can be other solutions.", "quantifier": "all well-formed NFAs and DFAs, all texts for columns, ends and states, all words, all segmentations into grapheme clusters that end before a parenthesis", "why_tests_cant": "A test compares given words or one given expression; that local comparisons, one for each row, settle the whole language is a statement about all words and about automata of any size.", "anchors": ["dandy/src/parser/regex.rs: full_regex, expression", "dandy/src/regex/mod.rs: fn to_nfa", "dandy/src/nfa/mod.rs: equivalent_to, accepts, has_epsilon_moves", "dandy/src/dfa/mod.rs: to_nfa, accepts"]}
{"id": "C133", "title": "Test words that settle what a DFA accepts", "statement": "Let it be given (by a DFA, an expression, or otherwise) which words should be accepted, and let W be words, the empty one among them, that tell apart all words that can be told apart by a continuation. Let V be words, the empty one among them, of which n can be told apart. If a DFA with at most n + k states gives the right answer for all words that consist of a word of V, at most k + 1 elements of its alphabet, and a word of W, then it gives the right answer for all words over its alphabet; so if the reference is a DFA over the same elements, equivalent_to says that they are equivalent. With at most k elements in between this is not so. For every DFA there are such V and W, with as many words as minimize leaves states in V and at most as many in W, which serve for all k and all DFAs to be tested.", "quantifier": "all references (functions from words to yes or no), all well-formed DFAs, all lists of words V and W, all numbers k, all iteration orders of hash sets", "why_tests_cant": "This is a statement about what tests can show: that finitely many answers determine all others, for every DFA with a limited number of states, can itself not be tested.", "anchors": ["dandy/src/dfa/mod.rs: accepts, equivalent_to, minimize", "dandy/src/dfa/eval.rs: step"]}
{"id": "C134", "title": "Expressions over different elements, made comparable", "statement": "If t and u are texts of expressions, then ((t)|((u)(∅))) is one that matches the same words as t, and has the elements of both. So with ((t)|((u)(∅))) and ((u)|((t)(∅))), equivalent_to says exactly whether t and u match the same words, and union and intersection of the NFAs, difference and symmetric_difference of the DFAs made from them succeed and give the words that match either, both, only t, or exactly one of t and u; invert of the DFA made from the first gives the words over the elements of both that t does not match. As they stand, expressions that match the same words are not equivalent and cannot be united if an element occurs in one of them only. The union of the NFAs of t and u exists and is equivalent to the NFA of ((t)|(u)) exactly if t and u have the same elements.", "quantifier": "all texts of expressions without white space around them that do not swallow a parenthesis written after them, all segmentations into clusters that do not join the sign for the empty language with a parenthesis, all iteration orders of hash maps", "why_tests_cant": "Equality of what two expressions match is a statement about infinitely many words, and it is claimed for every pair of texts, whatever their elements are.", "anchors": ["dandy/src/parser/regex.rs: regex", "dandy/src/regex/mod.rs: to_nfa", "dandy/src/nfa/mod.rs: equivalent_to, union, intersection, to_dfa", "dandy/src/dfa/mod.rs: difference, symmetric_difference, invert"]}
