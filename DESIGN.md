# Formal model of dandy: design

Lean 4.33.0 + Mathlib (single modules only). The model lives in `lean/Verif`:

| directory | content |
|---|---|
| `Verif/Spec/*`   | specifications, independent of the model's helper functions (runs, paths, regex matching, shortlex order, layouts, ...) |
| `Verif/Model/*`  | the code of /repo, function by function; each definition cites file and lines |
| `Verif/Proofs/*` | helper lemmas |
| `Verif/Props/*`  | the property theorems, each with a concrete example meeting its hypotheses |

## 1. Modelling conventions

* **Strings** (`Rc<str>`, `String`) are `List Char` (`Str`). `n.to_string()` is `Nat.toDigits 10 n`.
* **usize** is `Nat`; overflow and memory exhaustion are not modelled.
* **Vec** is `List`. Indexing `v[i]` inside automata is a total access with a default value, and `usize` subtraction is truncated. That neither is
  ever observed on valid automata (predicate `WF`) is property C105: Verif/Model/Checked.lean models the same functions again with every index,
  subtraction, `unwrap`, `expect` and assertion as a possible panic, and the two models agree. In the other crates, code that explicitly can panic
  (`unwrap`, `expect`, `panic!`, `unimplemented!`, slicing) returns `Option`, `none` being the panic; the subtractions of dandy-draw are guarded
  or of the form `levels - level` with `level < levels` (C55).
* **HashSet<usize>** is a strictly increasing list; equality of sets is list equality. Iteration order of a
  HashSet/HashMap is nondeterministic in Rust; wherever the order can be observed, the model takes an *oracle*
  argument that permutes the elements, and the theorems quantify over every oracle that returns a permutation.
* **Loops** are folds or structural recursion; `while` loops with data dependent exit run with explicit fuel.
  Worklist algorithms return `none` when fuel runs out; theorems conclude `= some _`, so termination is part of the
  claim. (For the small epsilon-closure loop the function is total and a separate theorem says that the loop exits
  through its own condition.)
* **Evaluators** carry the automaton; `rev_map` (a map element -> column) is a lookup that returns the last column with
  that element, as `collect()` into a HashMap does.
* **WF** (valid automaton): alphabet has no duplicates; each row has one entry per element; all targets exist;
  `initial_state` exists; exactly that state carries the `initial` flag; state names pairwise distinct.
* **External code**: grapheme segmentation (`unicode-segmentation`) is a parameter of the regex parser/`accepts_graphemes`
  with its assumptions stated explicitly; `nom` combinators are modelled by hand from nom 7.1.3's documented behaviour;
  `nalgebra` matrix product is modelled as Boolean matrix product.

## 2. Properties: what is modelled and how it is proved

| id | model | proof idea |
|---|---|---|
| C01 | `Dfa`, `DfaEval` step/step_multiple | spec: inductive run relation over named elements; induction on the word |
| C02 | `Nfa`, `NfaEval`, closure loop | spec: inductive path with epsilon moves; evaluator set = reachable set, induction on the word |
| C03 | `DfaEval` | induction over call history; the `step_multiple(&[])` corner case after an unknown element is refuted by a witness, the rest proved |
| C04 | `NfaEval` | same |
| C05 | `Nfa.closure` | worklist invariant, reflexive-transitive closure |
| C06 | `stepAll` | direct, index-wise |
| C07 | `Dfa.invert` | run relation unchanged, flags flipped |
| C08-C10 | `Dfa.product` (worklist, naming with oracle) | worklist invariant: explored = pairs reachable by a common word; simulation |
| C11 | `Dfa.equivalentTo` | worklist invariant (explored pairs agree on acceptance and are closed) |
| C12,C13 | reachability loop, `removeStates` | invariant; renumbering by rank of kept indices |
| C14 | Hopcroft loop | invariant: P refines accept-partition, unions of indistinguishability classes, and stability up to W |
| C15-C17 | `merge`, `minimize` | quotient, pigeonhole / Myhill-Nerode, isomorphism |
| C18 | `toNfa` | run = path without epsilon |
| C19,C20 | `toDfa`, `Nfa.equivalentTo` | worklist over sets, termination by 2^n bound |
| C21 | `Nfa.union` | disjoint-sum simulation |
| C22-C24 | `Nfa.product` | relation between pairs and runs; negative witness for the doc claim C24 |
| C25,C26,C28 | `removeEpsilonMoves` | language invariants for inlining, pruning, initial split |
| C27 | reachability for NFAs | as C12 |
| C29-C33 | `WordComponentIndices` iterator | stack invariant, min_word minimality, pumping bound on length gaps |
| C34,C35 | `Regex.toNfa` | fragment correctness by induction over the tree |
| C36,C37 | regex parser/printer | grammar as inductive relation; soundness + completeness; round trip on the safe fragment, negative witnesses; for graphemes printed unambiguously the exact condition for the language to survive (no white space at the ends, or nothing matched), and otherwise what is lost: every word begins and ends with the white space that the parser trims off (`strip_spec`, by cutting the printed sequence at its items) |
| C38,C39 | `TryFrom` validation | case analysis; spec of a legal table |
| C40-C43,C59 | table printer + nom parser | layout relation, parser complete and sound for it |
| C44,C45 | inductive set of API histories | preservation lemmas of all operations |
| C46 | `freshName` | pigeonhole |
| C47-C52, C61-C63 | CLI functions | composition of the above; a run of a command is a list of lines (`log`/`out`) and a result; files are a function from path to content (`Env`) |
| C53,C54 | wasm store as state machine (`Store`, `call`, `session`) | histories of calls and results; `Means` says what a handle stands for, from the history alone; invariant between histories and stores |
| C55-C57, C64, C65 | draw: arrows, grouping, placement, ASCII art | invariant of the placing loop; groups against the labels `dfaLabels`/`nfaLabels` read off the table; columns of every line (`UpperLine`, `LowerLine`, `StateLine`); exact failure condition for ASCII elements; negative witnesses for C57, C64, C65; positive parts of C64 (stable sort with distinct keys; the line of states is unique) and C65 (reading a picture back: arrow heads, passed states, labels up to the next blank or bar, in `Proofs/DrawDecode`) |
| C66 | `draw` as the list of calls of the drawer, rational coordinates | texts, circles and lines of the list against formulas for the positions; `C66_dfa_lines`, `C66_nfa_lines`: the exact list of all lines; `C66_dfa_default`, `C66_nfa_default`: with the default sizes circles are nested or apart |
| C67 | the tables and expressions printed in the documentation, as texts given to the modelled parsers | the languages the documentation ascribes to them, for all words |
| C68, C69 | `CanvasDrawer` and `EguiDrawer` as interpreters of the calls of the drawer; state of the 2d context, to which colours are handed as texts that are read by the rules of CSS | what can be seen (`items`, `Visible`) computed from the calls alone; invariant relating the context's path to the last outline; negative witnesses |
| C70-C75 | the scripts of `website/index.html` over the model of the wasm module: a page (texts, buttons, error reports, canvas, objects) and a list of events (edits and clicks) | invariant: the keys from the counter on are unused, and the values of text areas contain no carriage returns; each button's function is then computed from the texts it reads; negative witnesses for leaks, overdrawing and stale results |
| C76-C78 | `main` of dandy-cli: files as a changing world (paths name files, files have contents), the output file emptied before and appended during the command, standard output, standard error, exit status | noninterference: worlds agreeing except for one file give the same run of a command that does not read this file; the message on standard error is one of a separate list of reasons (`Reason`); removal of log lines commutes with all commands; error texts are checked for line ends; names of states stay names under products and conversions, so that the table written is read back (C40); negative witnesses for aliasing and for `#` |
| C79 | dandy/src/tests.rs: the tests as programs that may fail (`none`), the generators as predicates (any number of states, any names, shuffled alphabets and targets, any nesting of expressions); the loop over all words with `CounterIter` | each test is proved to pass for all values of its generators from the theorems about the operations; for `nfa_words` the counter is shown to list the words in shortlex order and the two enumerations to wait at the first word not yet listed |
| C80 | dandy-egui/src/main.rs: the startup, and the closure called in every frame, with the edit and the click of the frame as parameters; what is painted is a list of shapes | induction over frames with inductive descriptions of the typed and the submitted text (shown to be unambiguous); the picture by C66 and C68; the startup by C57 for all orders |
| C81 | dandy/src/parser again, with errors: each nom combinator also returns nom's error (rest of the text and code); `all_consuming` | the parsers without errors (C36, C43) are the same parsers with the errors forgotten; for tables: compositional lemmas on what is consumed before an error, and the soundness and completeness lemmas of C43; for expressions: the parser reads at least as far as any derivation of the grammar, by induction over derivations |
| C82 | the operations of C03–C22 called one after the other, as a term over variables says (`Term.Computes`, each call with its own iteration order); `Term.Holds` reads the same term as a formula | induction over terms: every intermediate result is well formed, has the common elements, and its language is the set of words at which the formula is true; then the theorems on `equivalent_to`; for the converse, one-state automata as truth values |
| C83 | sizes: the parser and NFA construction of expressions (C34–C36), NFA product, epsilon removal, minimisation, `to_dfa` | expressions: number of states counted on trees, then induction over the parser, tracking the consumed text; nested `+` and the look-back expressions by derivations in the grammar; lower bound for DFAs by injecting bit strings into states; the others by counting the keys of the explorations |
| C84 | the iterators of C29–C33 and `has_reachable_accepting_state`; finiteness and cardinality of the language as a set of words (Mathlib's `Set.Finite`, `Set.ncard`) | pumping lemma for paths with epsilon moves, with the number of states as bound; counting the distinct items by C30 and C31 |
| C85 | the work of the iterators of C29–C33 (Verif/Model/WordsCost.lean): for every function of words.rs a count of the items its loops and iterator adaptors handle, on the sets computed by the model; hash set operations count as constant, searches as if they did not stop early | invariants: sets on the stack have no duplicates, last word of length at most (calls) × (states); then bounds function by function |
| C86 | two runs of the same operation with two unrelated iteration orders of the hash tables (the `ord` parameters of the models of C09–C28 and C38) | removal: sorted before use; products: the exploration does not depend on the order, only the fresh names (`takeNames`) do, and not even these if the wanted names are different; epsilon removal: simulation of the two runs by lists that are permutations of each other, through the subset construction; minimization: nothing is merged if all reachable states are distinguishable, otherwise opposite orders keep opposite ends of a class |
| C87 | draw: what can be seen of a drawing | `SameSight` compares circles, texts and lines as sets; all lines (C66) are sorted by the height where they start; arrows on one level have different middles; labels are split at blanks; witnesses for each condition; Props/Pictures.lean: the painted canvas (egui shapes) shows exactly the items of the drawing up to colour (C68), so equal pictures give equal drawings |
| C88 | the warnings of `test_equivalence` of dandy-cli and where in a run they are printed (`runWarnings`, `stderrLines`) | the types of the two sides of every comparison follow from how `DandyTester::new` and `load_test` convert; errors of commands have the prefix `Error in` |
| C89 | the texts of the example files (`Verif.Model.Examples`, `Verif.Model.Window`), parsers, validation, `equivalence` of dandy-cli | parsing is computed; languages by stating the words accepted from every state, or by the proved equivalence check; the command by C48 |
| C90 | the product constructions with a state passed through the calls of the combinator (`Verif.Model.ProductMut`), the calls one after the other (`callAll`, `Verif.Spec.ProductMut`) | the exploration does not look at the answers (`exploreMut_eq`); the answers for different pairs are the values of some pure combinator, so the theorems about `product` apply |
| C91 | the parsers with a count of steps (`Verif.Model.ParseCost`): every combinator carries its parser of the model and its cost, so the text each part is run on is the real one; one step per call, per round of a loop and per character looked at, one per node for the copy made for `+` | tables: what stays in one line costs a constant per character of the line (`PC.Line`), a skipped line is read once more by the row loop (`rows_cost`). Expressions: a potential argument without copies (`expression_good`), copies scale it by the size of the largest copied tree (`Scaled`), trees are small (`FewN`); lower bound: the steps are at least the nodes of the result (`Paid`). The bound on the nesting in the model does not matter (`C91_regex_steps`) |
| C92 | the loops of the DFA algorithms with a count of steps (`Verif.Model.AlgCost`): next to each function of the model a function `…Cost` that follows the same loop and adds one step per call, per state, transition, symbol or set element looked at, and `r(1 + log2 r)` for sorting `r` elements | worklists: every state or pair is expanded once (`exploreCost_eq`, `bfsCost_le`, from the exploration invariants of C08/C10); Hopcroft: at most `2n + 1` rounds, each at most `n` per letter. `C92_complete`: the fuel of the model is never what stops a count. Lower bound by the Chinese remainder theorem on two rings of coprime length |
| C93 | the same for NFAs (`Verif.Model.AlgCostNfa`); `remove_epsilon_moves` after the first search of dead states is counted by an upper bound | every state of a search by levels is expanded once (`bfsCost_sum`); sums over duplicate-free sets of states are at most the size of the table (`sum_le_table`); a product is summed over all pairs of outcomes at once (`pairWork_le`, `sum_product`); the explorations of `to_dfa` and `equivalent_to` visit as many sets (pairs) as there are states (pairs of states) in the resulting DFAs (`seen_length`, `pair_states`). Lower bound from `C83_to_dfa_large`. `C93_complete`: fuel never stops a count |
| C94 | `UnicodeSegmentation::graphemes(_, true)` of the crate, after Unicode Standard Annex 29 (`Verif.Model.Unicode`); the tables of character properties are a parameter | the rules restated position by position as in the standard (`Verif.Spec.Unicode`, inductive `Ties`); the model looks back only to the last boundary (`keeps_local`), so clusters are decided locally: a list is the segmentation iff its members are single clusters and its neighbours do not join (`good_chain`). From this the assumptions `Clusters`, `Segmentation`, `FirstCluster`, `LettersApart`, `BreaksLetters`, `BreaksAscii` of other claims, the exact condition for `accepts_graphemes` to replace `accepts`, and plain text as a regular expression |
| C95 | the declarations of the arguments in dandy-cli/src/main.rs and clap's parser with its default settings (`Verif.Model.Clap`): words are read one after the other, with the option that waits for a value as state | a grammar of command lines as inductive relations (`Verif.Spec.Clap`: items, options only, options and arguments), with its own tables of options; the parser is proved to read exactly these lines (`C95_exact`, both directions by induction), the rest follows from it; `C95_pipeline` joins it with C78. `none` stands for every message of clap (error, help, version) |
| C96 | nothing new (`remove_epsilon_moves`, `remove_unreachable_states`, `optimize` as in C13, C25–C28) | the dead states as an inductive predicate on paths (`Verif.Spec.Cleanup`), characterized by walks (`C96_dead_iff`); the set computed by the code is between it and itself: contained since the loops only add states all of whose targets are in the set, containing it by induction and C26; states and transitions of the result by name (`C96_states`, `C96_moves`); restricting to all states is the identity |
| C97 | benches/benchmark.rs, with the contents of the files it reads (`Verif.Model.Bench`) | the files are run through the parsers by the kernel; the rest follows from C01, C09, C16, C19, C34, C60. Two segmentations that agree at the positions of a text give the same tree (`Proofs/RegexCongr.lean`, a relation preserved by all combinators), so ASCII texts can be parsed with single characters (`C36_ascii`) |
| C98 | the recursion of parser/regex.rs:17-50 and of the functions that walk a tree in regex/mod.rs (`Verif.Model.ParseDepth`: every parser with the greatest number of calls of `expression` active at once) | two measures of texts (number of `(`; parentheses open at once) satisfy the same five laws (`Meas`), and one induction over the combinators bounds the depth by any such measure; a second one compares the tree with the depth, a third shows that the fuel is never used up. How many bytes of stack a call takes, and when the stack overflows, is not modelled |
| C99 | `to_string`, `to_table`, `ascii_table` and the ASCII pictures as in C37, C59, C57; the steps of `to_nfa` (regex/mod.rs:104-155, 211-309) in `Verif.Model.ConvCost`: one for every call, every item and every state that is moved, like C92 | an induction over the parser combinators with the invariant that at most `x * 2^p` characters are written for a text with `p` occurrences of `+`, where `x` is at most twice the length with some to spare (`Short`); widths of columns bounded column by column; levels of a picture are at most the pairs of states; work bounded by states × (depth + elements); families of nested `+` and `*` for the lower bounds; `C99_to_nfa_least` (Verif/Props/ConvLeast.lean) keeps the counting honest from below |
| C100 | `draw` (dandy-draw/src/lib.rs:156-314, pos2.rs) with a rounding after every arithmetic operation and every conversion from `usize` (`Verif.Model.DrawF32`); numbers of `f32`, what IEEE 754 demands of a rounding, and rounding to nearest in `Verif.Spec.F32` | every intermediate result is an integer or half of one, bounded by the number of states, levels and the options, so it has at most 24 bits and is kept (`Proofs/F32.lean`); infinities and NaN are not modelled (they need options beyond 2^100) |
| C101 | the key generator of dandy-wasm/src/lib.rs:33-38, 221-223 with a `usize` of 32 bits, with and without overflow checks (`Verif.Model.Wasm32`); the rest as in C53 | the counter is the number of handles created plus one (mod 2^32), by induction over the calls; the collision by an induction over the rounds of loading and deleting |
| C102 | the models of the page (C70) and of the program (C76–C78) side by side; line ends (Verif/Spec/LineEnds.lean) | both verdicts are equivalent to the same statement about the two texts; tables stay tables of the same content if `\r\n` is replaced by `\n` at some line ends, in both directions, by induction over the grammar of tables |
| C103 | a second reader of tables that splits texts into lines and words (Verif/Spec/Reader.lean), independent of the parser | equality of the two readers on all texts, through the grammar of tables (C42): a text is a table exactly if its lines are an interleaving of ignored lines and lines of the table |
| C104 | rectangles of items and the counts `over`/`under` on pairs of states (Verif/Spec/DrawBox.lean); painted things of the page | each part of the drawing is bounded by sizes of the options; the number of heights from the invariants of the layout (an arrow is put on the lowest free height); partial because the page does not scale drawings to its canvas (finding 35) |
| C105 | Verif/Model/Checked.lean: all functions of dfa/mod.rs, dfa/eval.rs, nfa/mod.rs, nfa/eval.rs and nfa/words.rs again, with each index, subtraction and `unwrap` a possible `none` | each function equals the total model on valid automata, by the invariants (current states, targets, matrices and stacks in range); then the theorems about the total model apply |
| C106 | `try_from` of both kinds with a count of steps (Verif/Model/ReadCost.lean), one per item and per character of a name that is hashed or copied, ending where the code returns early | the words of a table take no more room than the text (`Reader.whole_le`, by the reading of C103); the work is at most six steps per character of these words; then C91, C92, C93 |
| C107 | the placing of arrows as for C55; arrangements in general (`Arranged`, Verif/Spec/DrawLevels.lean) | pigeonhole for the lower bound; for the upper bound, an arrow is kept from each lower level by one over its left end or one inside of it, and those inside are covered once more, so induction on what is left of `m`; filled levels: exchange argument along a pass; not least (`C107_least_false`): an NFA with four arrows, all orders of them |
| C108 | the functions of drawing with a count of steps (Verif/Model/DrawCost.lean), as for C92 | the work of the passes exactly, by induction on the passes; the sums of the labels of the groups; the bytes of the lines while labels are written (`splitByte_bytes`); levels by C55 and C107 |
| C109 | nothing new: `equivalent_to`, `symmetric_difference`, the iterator over words, the classes, the command `symmetric-difference` | partition refinement: the classes of "not told apart by words of at most k elements" become more with every k until they stay for ever (`Apart.short`), for the states of both automata together; the first word from C09, C29, C31; the command from C50; optimality by DFAs with one element shaped like a lasso |
| C110 | nothing new: the parser of tables and the checks of `TryFrom<ParsedDfa>`, `TryFrom<ParsedNfa>` | a table as a set of lines with marks and of entries (state, element, target), all by name; by the theorems of C38 and C39 runs of the automaton are walks through these entries, so tables with the same content give the same runs; exchanging lines and columns (a permutation `σ` of the column numbers, applied to the header and every line) keeps the content and legality |
| C111 | nothing new; the specification is Mathlib's: `Language.IsRegular` (accepted by a finite `DFA`), `Language.leftQuotient` | every Mathlib DFA becomes a table with numbers as names (`tableOf`), which is written and read by C40 and C41; every DFA of the library is a Mathlib DFA with one state more (`Dfa.mathlib`); expressions by solving the system of equations of a DFA with Arden's lemma (`solve`), printing the tree in parentheses and reading it back as in C37; minimal size: in a reachable and reduced DFA states and left quotients correspond one to one |
| C112 | nothing new; specification `Dfa.letters`, `Nfa.letters`, `RegexTree.letters` (Spec/Rename) | every function of the model commutes with the renaming: lookup in the alphabet by injectivity, explorations step by step in two runs related by the renaming (`explore_rel`), the other functions do not read the letters |
| C113 | nothing new; specification `SameButNames` (Spec/Reproducible) and `BothOr` (Spec/Rename) | both automata are compared with the one without names, which is not valid, so the lemmas are for arbitrary automata; for products of valid automata the explored pairs are the same and only the generated names differ |
| C114 | nothing new; stated with `Path`, `Run`, `accepts`, `equivalentTo`, `SameContent` | two explorations which correspond item by item give corresponding lists although keys and fuel differ (Proofs/Normal); the items are the sets of states after the same word; in a minimized DFA two words lead to the same state exactly if they have the same continuations |
| C115 | nothing new; shapes of combined texts and their languages in `Verif.Spec.Compose` | a phrase of the grammar of C36 stays one when text is added behind that does not change the clusters (`expr_extend`, one induction over the grammar), so what is written for a shape is an atom whatever follows (`shape_atom`); the rest is C36 and C20. `C115_unicode` and `C115_ascii` give the condition about clusters from the rules of Unicode and for ASCII; `C115_conditions_false` shows that the conditions are needed |
| C116 | nothing new; `keepWords` (leaving words out of a listing) in `Verif.Spec.Combined` | what the iterator yields is `FirstWords` of the language followed by `None`s (C29–C31), `FirstWords` is kept by filtering and determined by its language (C62), the languages of the combinations are C07, C09, C22. DFAs are listed through `to_nfa` as in C109; for NFA intersections freedom of epsilon moves is assumed, since the iterator panics otherwise (C32) |
| C117 | nothing new; `seenDfa`, `seenNfa` (what calls on an evaluator show) in `Verif.Spec.Observe` | by induction over the calls with C03 and C04, whether a call returns something depends only on the elements known and what was fed before, and acceptance only on the language; conversely single calls show alphabet and language (C11, C20). That the two kinds of evaluators differ after an unknown element is `C117_after_unknown_false` (finding 37) |
| C118 | nothing new; the witnesses `counter`, `circle` and `stopper` in `Verif.Spec.Attained` | words that continuations tell apart lead to different states of every DFA (`states_ge`): `a^i b^j` for two counters; for the circle, words that lead to each set of states (`round_path`, `circle_tells`). For NFA products all pairs are found by the exploration. The upper bounds are C10, C19 and C83 |
| C119 | nothing new; `Op.shifted`, `Op.grown`, `Options.grown`, `Options.styled` in `Verif.Spec.DrawSize` | each group of calls (left arrow, states, arrows) is computed for the changed options; `Op.place` commutes with the changes. Exact arithmetic: with `f32` the positions are rounded |
| C120 | nothing new; `Outside`, `Clear` in `Verif.Spec.DrawSize` | every line is left of, above or below all circles (`raw_beside`), a segment between two points of a half plane stays in it; negative witness: the foot of the first arrow is inside of a circle |
| C121 | nothing new; `Unstruck`, `Spread`, `Options.Legible` in `Verif.Spec.DrawSize` | vertical lines and labels are at multiples of half a step, with a remainder; labels, horizontal lines and tips at multiples of a floor, with a remainder (`multiples`); on one floor the middles of arrows are different by C55. The width of texts is not known to the library and not modelled |
| C122 | nothing new | from the languages of union, intersection, difference and inverse and the meaning of `equivalent_to` and `has_reachable_accepting_state`; the bound on words by cutting out what is between two places with the same pair of states; the witness for the bound are two cycles of lengths without common divisor |
| C123 | nothing new | both kinds of tables are split into the same lines and words (C103), and the first entry of the first state is a name in one and begins with a brace in the other; for expressions the phrases of the grammar of C36 are built along the text |
| C124 | nothing new; `escape`, `dictionary` in `Verif.Spec.Escape` | the phrase of the grammar of C36 is built along the words; clusters of the written text by C115 (nothing but Prepend ties to a backslash or parenthesis), clusters of the accepted text by C94 |
| C125 | the texts of all errors (`parseErrorText`, `NomError.text`, `NomError.debug`, `LoadError.text`, `EquivalenceError.text`, `EquivalenceResult.text`, those of the wasm bindings), for errors reported for texts (names in tables have no blanks) | messages are injective: escaped characters form a prefix code that contains no bare quote, hexadecimal numbers are unique and end at a brace, names end at the first blank (Verif/Proofs/Messages.lean); `C125_kind_false`: NFAs are called DFAs by the loader; `C125_blanks_false`: names with blanks |
| C126 | nothing new; the shapes of C115 | replacing letters by languages commutes with union, concatenation and star, so the language of the expression with other parts is a function of the language of the expression with letters (C115 for both); the elements are compared part by part; `C126_letters_false`: the letters have to be different and new |
| C127 | nothing new; `to_string` and the parser of C36, C37 | every tree that is read has nonempty sequences and alternations of at least two (induction on the depth of the parser); for such trees the items, sequences and alternations read from the printed text are followed through the printed text (mutual induction on the tree), nested sequences being flattened, which does not change what is printed; white space at the ends as in C37; `C127_tree_false`, `C127_mark_false`: the tree is not kept, and a combining mark after an escaped operator changes the text; `C127_unicode`, `C37_roundtrip_unicode_partial`: with the rules of Unicode (C94) the condition on the segmentation is that no two elements join and none ends with a character of the class Prepend, and `C37_unicode_sequence_iff`: for sequences of plain elements this is exact |
| C128 | nothing new; `Pumps`, `exprSize` in `Verif.Spec.RegexPump` | induction over the phrases of the grammar (C36): every phrase uses up a piece of the text, and words with more elements than the piece has characters can be pumped in the piece (`Pumps.mul`, `.add`, `.star`, `.plus`: a repeated part that is short enough is itself the part that is pumped); finiteness as in C84; `C128_sharp` by `(aa…a)*` |
| C129 | nothing new; `Dfa.count` and `Dfa.rank` in `Verif.Spec.Count` are computed from the table alone | the list of the words of a length accepted from a state (`wordsFrom`) and of those before a word (`lowerFrom`) have no repetitions and the right members; that the enumeration begins with the smallest words (C31) then gives the places; operations by counting the sets of C09; `C129_equivalent` by the bound of C109; `C129_equal_counts_false`: two DFAs with equal numbers that are not equivalent |
| C130 | nothing new; `Shape.NoEmpty` and `Shape.Guarded` in `Verif.Spec.Solve` | induction on the length of words: through a guarded right hand side one more element can be seen than of the unknown parts (`guarded_upTo`); the meaning of composed texts is C115; the least solution by induction on the repetitions; `C130_unguarded_false` is the witness with the empty word |
| C131 | nothing new; `restOf` and `Fooling` in `Verif.Spec.Residual` | the continuations of a word are those of the state it leads to; in a minimized DFA all states are reached and different states have different continuations (C16), so that they correspond to the sets of continuations; the lower bounds because words (or pairs of words) that lead through the same state have the same continuations; `C131_counting` is the bound for the pairs aⁱ, bⁱ |
| C132 | `Spec/Certificate.lean` `NfaState.equation`: what one writes for a row of a table, as a `Shape` (C115) of texts for columns, states and ends. `Props/Certificate.lean` `Labels`: the columns and ends accept what they should, everything can be put in parentheses. | `C132_contains` (any NFA) by induction on the path, `C132_contained` (no epsilon moves) by induction on the word, both from the words of a row (`C115_compose`). `C132_exact`, `C132_dfa` with the comparison of the code (C20). `C132_solves` is the converse, `C132_exists` gives the texts (from C111; the clusters must break between two closing parentheses, as they do by the rules of Unicode: `C132_unicode`), `C132_epsilon_false` an NFA with an epsilon loop whose equation has other solutions. |
| C133 | nothing new; everything is said with `accepts` of words | the W-method: the states reached by words of V and j elements are at least n + j or no more can be reached, so that k elements reach all; then words that lead to the same state cannot be told apart by the reference, because the answers for one more element agree. `C133_exists`: each end word that is added splits a class of states; `C133_shorter_false` is a DFA with two states. |
| C134 | nothing new | `C115_compose` gives words and elements of the text put together; a product with the empty language has no words but elements. Assumed is that no cluster joins `∅` and a parenthesis, which by the rules of Unicode holds because `∅` is not of class Prepend (`C115_unicode`). `C134_unpadded_false` shows why the detour is needed: `a*` and `((a*)\|((b)(∅)))`. |
| C58 | `alphabetEqual` | set equality |
| C60 | `acceptsGraphemes`, `graphemesOnly` for any segmentation `seg` | C01/C02 applied to the list of clusters; invariant through the regex parser's combinators: every grapheme of a parsed tree is a first cluster |

## 3. Known deviations of the code from the stated properties

(Found while reading; each is to be proved as a negation with a concrete witness.)

1. `DfaEvaluator::step_multiple(&[])` returns a state even after an unknown element (C03).
2. `Regex::to_string` does not escape the characters `ε` and `∅` (it compares the byte length with 1), multi-codepoint
   clusters that begin with a reserved character, and leading/trailing whitespace clusters (C37).
3. `Dfa::to_table` of a DFA with empty alphabet cannot be parsed again (C40 excludes it).
4. NFA product: `(None, Some q)` is reached whenever *some* run of NFA 1 is stuck, not only when NFA 1 is in no state (C24).
5. `last_n_components` of an absolute path shown in full is `/` (C52).
6. `ascii_art` panics for labels longer than the line (`C57_dfa_false`), and when an overlong label has characters of several bytes
   (`C57_nfa_false`).
7. Lines consisting only of other Unicode white space (e.g. no-break space) are not ignored by the table parser (C42); a comment
   containing a lone carriage return makes the parser fail.
8. `remove_epsilon_moves`: the documented claim about which states are removed is false (`C26_doc_claim_false`).
9. The documentation of `regex` gives `0*1(0+ε)` as an expression for words with an optional last 0; `+` is the postfix operator, so the
   word `1` is not matched (`C36_doc_example_false`).
10. `words()` can return equal strings for different words of components (elements such as `a`, `aa`).
11. The CLI writes the lines of its output to the `--out` file without line ends (`C63_false_line_ends`).
12. `graphemes_only` does not make `accepts_graphemes` and `accepts` interchangeable: elements may join to one cluster
    (`C60_false_joining`).
13. The CLI's error messages for NFA files say "DFA" (cosmetic, modelled as they are).
14. The ASCII picture depends on the iteration order of a hash map (`C64_order_false`), never marks the real initial state
    (`C65_initial_false`) and does not show the elements of loops (`C65_loops_false`). The canvas drawing marks the initial state from
    below but also always has an arrow before the first state (`C66_left_arrow`; there is a FIXME in the code).
15. The canvas drawer's `finish_drawing` strokes the current path once more with whatever colour is set, so the last line of the last arrow
    is painted in the text colour (`C68_canvas_false`). `CanvasDrawer::from_element` does not set the text alignment, so nothing drawn with
    it is centred (`C68_from_element_false`). Nothing ever clears the canvas.
16. A negative scale panics on a canvas (negative radius, `C69_canvas_panics_iff`) but not with egui.
17. The documentation says that `0*1(0|ε)` matches strings which end in `1` or `10` and all other strings containing 1 once; `100` is not
    matched (`C67_once_false`).
18. The page leaks: a comparison with exactly one legal text, and every successful minimization, conversion of an expression and drawing leave an
    object in the wasm module (`C73_leaks`, `C73_growth_false`).
19. Nothing clears the canvas of the page, so a second drawing is painted over the first (`C74_overdrawn_false`). After an error, the old
    result of a minimization or a conversion of an expression stays (`C75_stale_false`). An NFA without elements is converted to a text
    that cannot be read (`C71_empty_alphabet_false`); the exact conditions are `C71_nfa_to_dfa_iff` and `C71_regex_iff`.
20. The CLI's exit status is 0 also when a command fails (`C76_status_false`), so scripts cannot detect failures. The message about a tested
    file that cannot be read does not name the file.
21. The CLI empties the `--out` file before reading the inputs, and reads the file to compare with after writing the result. If they
    are the same file, inputs are lost (`C77_input_lost_false`) and the comparison always succeeds (`C77_self_compare_false`).
22. The result of an operation on expressions with `#`, braces, or arrows as elements is a table that cannot be read back
    (`C78_regex_false`).
23. The report of `equivalence` quotes the rest of a text that cannot be parsed, with its line ends. The author of a tested file can
    thereby add lines to the report, such as a favourable verdict about any file (`C78_forged_line_false`; with `--bool`, or if all
    files can be parsed, there is one line per file: `C78_report_lines_partial`).
24. The parser clones what `+` is applied to, so nested `+` double the expression each time: `((((a)+)+)+)+` and so on, with `k` levels and
    `3k + 1` characters, give more than `2^k` states (`C83_regex_linear_false`). 100 characters exhaust the memory of any computer.
    Without `+` the number of states is linear (`C83_regex_linear_partial`).
25. `minimize` keeps the name of an arbitrary state of each class, and the order of the states depends on it: the table printed by
    `--minimized` changes from run to run (`C86_minimize_false`, `C86_cli_minimized_false`). So do the names of a product of DFAs whose names
    contain commas (`C86_product_names_false`) and the order of targets after `remove_epsilon_moves` (`C86_remove_epsilon_false`).
26. With `middle_arrow: false` a drawing is ambiguous: the tips at the ends of arrows do not tell which of two arrows between the same
    states goes where (`C87_end_tips_false`). With the default options the drawing determines the automaton (C87).
27. The example file dandy-cli/tests/dfa1.dfa is not the text of a DFA: the state `fail` has two rows (`C89_first`).
28. Parsing a regular expression can take exponential time and memory: the parser copies the tree of every group followed by `+`, so
    `((…(a)+)+…)+` with 3k+1 characters takes at least 2^k steps (`C91_regex_linear_false`; see also finding on C83).
29. A reserved character after a character with the Unicode property Prepend (such as U+0600) is silently read as a part of a literal, since
    the parser takes whole clusters: `c*` is a literal of two characters, `(c)` a parse error (`C94_prepend`).
30. `optimize` once is not enough: it removes unreachable states first, and states reachable only by epsilon moves are unreachable when
    these are gone (`C96_optimize_once_false`); a second run removes them (`C96_optimize_twice`). The order follows the documentation, the
    opposite order would do both at once (`C96_opposite_order`).
31. The benchmark `equivalence check` measures nothing of the search: the initial states of its two DFAs already differ in acceptance, so that
    the check is over after the first pair (`C97_equivalence_false`; `dfa4.txt` and `dfa7.txt` would be a pair with a complete search).
32. Nothing limits the nesting of parentheses in regular expressions: the parser calls itself once per open parenthesis (`C98_open`, `C98_nested`), so a
    short text of many `(` overflows the stack, which aborts the tool or traps the web page instead of giving a parse error.
33. The counter for handles of the wasm bindings has 32 bits in a browser and wraps around in a release build: after 2^32 creations a new object gets
    the handle of an older one and, if that is still in use, silently replaces it (`C101_overwritten`).
34. A table whose lines end with carriage returns alone can be pasted into the website, which takes them for line ends (they are normalized by
    the text area), but is rejected by the program and the library (`C102_carriage_return_false`).
35. The page draws NFAs in their full size on a canvas of 700 by 500 points, without scaling or scrolling: of NFAs with nine or more states the
    right part is cut off, names and all (`C104_page_false`, `C104_page_partial`), and likewise the lower part if more than 13 arrows pass
    between two neighbouring states.
36. Drawings may be higher than necessary: the arrows `0 → 2`, `1 → 3`, `2 → 5`, `3 → 4` fit on two levels, but are drawn on three for every order of the
    hash map (`C107_least_false`), since a level is filled with the arrows that end first. The height stays within the bounds of C107.
37. The two kinds of evaluators report unknown elements differently: after one, `step` of a `DfaEvaluator` returns `None` for ever, while `step` of an
    `NfaEvaluator` returns `Some(())` for the next known element, although it never accepts again (`C117_after_unknown_false`).
38. `OffsetScaleDrawer` multiplies radii by the horizontal scale only: with a smaller vertical scale the arrows reach into the circles
    (`C120_flat_dfa_false`, `C120_flat_nfa_false`).
39. A table given to the program as an expression is usually accepted, since blanks, line ends, braces and hyphens are ordinary elements of expressions
    (`C123_expression`, `C123_expression_false`); there is no warning, only a wrong answer.
40. White space at the end of an expression is cut off even after a backslash: `a\ ` is reported as an error (`C124_blank_false`), although white space can be
    escaped at the beginning.
41. The messages of the loader of the program call NFAs DFAs (dandy-cli/src/automata.rs:21-24, `Error parsing DFA` and `Error compiling DFA` for
    `NfaParse` and `NfaCompile`), so a file loaded as the wrong one of the two kinds gives the same message (`C125_kind_false`); the command `equivalence` has its own,
    correct messages (`C125_equivalence`).

## 4. Trusted base

* the Lean kernel and the axioms listed by `#print axioms` (only `propext`, `Classical.choice`, `Quot.sound`);
* the faithfulness of the hand translation in `Verif/Model` (cited line by line), including the hand models of
  std collections, nom, nalgebra and the abstract segmentation function;
* assumptions about Unicode, always explicit hypotheses: `Segmentation cl` (the first cluster is a non-empty prefix) and, for C60,
  `Clusters seg`; they are proved for the rules of Unicode Standard Annex 29 in C94, so what is trusted is that the crate implements these
  rules and that its tables are consistent (`Table.Consistent`, and `Table.Ascii` for ASCII texts); the list of white space characters (`isWhitespace`) is copied from the Unicode property `White_Space`;
* std behaviour modelled by hand: `str::lines`, `str::trim`, `Path::components`, `PathBuf` joining, hash maps, sorting;
* the closures given to nom combinators are pure functions in the model;
* histories (C44, C45): an inductive set of automata containing all valid automata and closed under all public operations;
* in the CLI model the arguments are already parsed, except in C95, where clap is modelled after its documentation (version 4, no settings but the
  ones in the source; arguments are Unicode text; what clap prints is left out); the measured duration is a parameter; messages of
  the operating system are part of the world; nom's errors have the texts of their `Display` and `Debug` implementations, where the set
  of characters that Rust's `Debug` prints unescaped is a parameter (`plain`, any set: Rust takes it from the Unicode tables);
* program (C76-C78): all files are regular files; a file that was created can be read; writing never fails; nothing else changes the
  files while the program runs; `File::create` fails or empties the file;
* wasm: the three thread local maps and the key counter are the state; the canvas lookup is a parameter (`Env.canvas`), the automaton
  handed to the drawing code is part of the result, the texts of load errors are those of the CLI row; the counter does not overflow (C101: it
  does so after 2^32 - 1 handles);
* drawing: `ord` is the iteration order of the hash map, any permutation; coordinates are rational numbers instead of `f32` (C100: this makes no
  difference for drawings that are not enormous, given integer options; it assumes the arithmetic of `f32` is that of IEEE 754); the drawer is
  the list of its calls; lines of ASCII art are lists of characters, byte offsets are
  computed from the UTF-8 lengths of the characters;
* backends: the 2d context of the browser is modelled after the HTML standard as far as it is used (colours written as `rgb(r g b)` by the rules of
  CSS, current path, `stroke` of the whole path,
  a non-positive line width is ignored, `arc` throws for negative radii, `fillText` with alignment); what egui's painter does with a shape is
  not modelled, only the list of shapes;
* page: writing to the value of a text area turns CR LF and CR into LF (API value of the HTML standard), a line end directly after the start tag
  is dropped, `innerText` of a button stores the text, a `Result` error of a wasm function is an exception with its text, and edits
  replace the whole text of an area that is not read-only; what is said about `plain` above holds here too;
* tests (C79): the crate proptest is replaced by predicates for the values its strategies can produce (names by the regular expressions of the
  generators); assumptions as hypotheses: letters are clusters of their own (`BreaksLetters`, `BreaksAscii`), the crate regex implements the
  documented grammar on the generated expressions (`LibAgrees`, shown to be satisfiable);
* errors of parsers (C81): which error each nom combinator reports (nom 7: `alt` the one of the last alternative, `verify` its own at the
  beginning, `many1` and `separated_list1` the one of the first element, `space1` Space, `line_ending` CrLf, `take_till1` TakeTill1, `tag` Tag);
  nom's errors of incomplete input do not occur with complete parsers;
* work of the automata algorithms (C92, C93): the unit costs of Verif/Model/AlgCost.lean and AlgCostNfa.lean; a hash lookup or insertion, a comparison of two symbols and
  a vector access are one step (expected time of hashing, and strings of bounded length), sorting is `r(1 + log2 r)` steps.
* work of the parsers (C91): the unit costs of Verif/Model/ParseCost.lean; finding the first grapheme cluster and comparing with the fixed
  lists of reserved words are one step each; turning the parsed tables into automata is counted separately
  (C106, Verif/Model/ReadCost.lean: hashing or copying a name takes one step per character, a look-up in a hash table compares a bounded number of names);
* work of drawing (C108): the unit costs of Verif/Model/DrawCost.lean, which are those of the automata algorithms; a byte written or moved is one step;
* work of the word iterators (C85): the unit costs of Verif/Model/WordsCost.lean; hash set operations take constant time;
* window (C80): egui calls the closure once per frame, an edit of the text area takes effect before the button is asked, the painter of the
  area starts empty in every frame; the widgets and the clipping of the area are left out;
* not modelled: I/O, the messages of clap, colours/pretty printing of reports, wasm-bindgen glue, floating point rounding (but C100),
  usize overflow, memory limits.
