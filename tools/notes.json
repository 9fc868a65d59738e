{
 "C01": {
  "note": "Word segmentation (accepts_graphemes) goes through the parameter seg; the theorem is about the element list."
 },
 "C03": {
  "status": "partial",
  "note": "The last clause is false: step_multiple(&[]) after an unknown element returns Some (C03_step_multiple_empty_counterexample); everything else is proved for all histories."
 },
 "C24": {
  "status": "partial",
  "note": "The documented claim is false (C24_doc_claim_false); proved instead: 'none' means that some run is stuck, the claim itself for deterministic first operands, and that it holds for a first operand exactly if no word has both a stuck and a complete run (C24_doc_claim_iff)."
 },
 "C37": {
  "status": "partial",
  "note": "False in general (C37_false_epsilon, C37_false_space, C37_false_mark). Proved for expressions whose graphemes are printed unambiguously and whose printed text has no white space at its ends; in particular for ASCII graphemes. For unambiguous graphemes the exact condition is proved (C37_roundtrip_iff, C37_ascii_iff): the language survives iff the text has no white space at its ends or the language is empty; C37_stripped says what is lost otherwise."
 },
 "C36": {
  "note": "For every segmentation function; also shows that the documentation example 0*1(0+ε) is wrong (C36_doc_example_false)."
 },
 "C40": {
  "note": "The table of a DFA with an empty alphabet cannot be parsed (C40_false_empty_alphabet); the theorem carries this as a hypothesis."
 },
 "C42": {
  "note": "White space means blanks and tabs, as in the parser; a line of other Unicode white space is not ignored (C42_false_whitespace_line)."
 },
 "C45": {
  "note": "For DFAs the source alphabets must not be empty; C45_false_empty_alphabet is the counterexample otherwise."
 },
 "C52": {
  "status": "partial",
  "note": "False for absolute paths with fewer names than asked for (C52_false_absolute); proved for relative paths and for absolute paths with enough names."
 },
 "C63": {
  "status": "partial",
  "note": "False when there is more than one line (C63_false_line_ends); proved: the file contains exactly the printed lines joined without line ends."
 },
 "C60": {
  "note": "For every segmentation satisfying Clusters. The claim of the documentation that graphemes_only makes accepts_graphemes and accepts interchangeable is refuted by C60_false_joining."
 },
 "C57": {
  "status": "partial",
  "note": "False: the picture panics if a label does not fit (C57_dfa_false, C57_nfa_false). Proved: the picture exists and shows the automaton if all labels fit; with ASCII elements and without epsilon moves, exactly when it panics."
 },
 "C64": {
  "status": "partial",
  "note": "False (C64_order_false). Proved for all automata: two pictures show the same arrows and have the same last line (labels that fit), and picture and drawing are determined if no two arrows have the same right end. What does not depend on the order is also C56."
 },
 "C65": {
  "status": "partial",
  "note": "False for the initial state, for labels of loops, for the elements of a DFA, and for labels with bars (the _false theorems). Proved: if names and labels are legible (no blanks, bars, line ends; labels fit), the picture determines states, accepting states, all labels between different states and where the loops are; for DFAs over the same elements all runs; and with the initial state and the elements on loops, the language."
 },
 "C66": {
  "note": "Exact rational arithmetic instead of f32; for all sizes satisfying Options.Sensible, which the default sizes do."
 },
 "C67": {
  "status": "partial",
  "note": "All examples are right except the remark about strings containing 1 once (C67_once_false) and the +-expression of C36."
 },
 "C68": {
  "status": "partial",
  "note": "False on a canvas: the last outline is stroked again in the text colour (C68_canvas_false), and from_element does not centre the texts (C68_from_element_false). Proved: everything else is painted as asked for; egui exactly."
 },
 "C71": {
  "status": "partial",
  "note": "False for NFAs without elements (C71_empty_alphabet_false): the table without columns cannot be read back. Expressions: their elements must be names that can be written in tables. These are the only exceptions (C71_nfa_to_dfa_iff, C71_regex_iff). Everything else proved."
 },
 "C73": {
  "status": "partial",
  "note": "The full claim is false (C73_growth_false): minimizing, converting expressions, drawing, and comparisons with exactly one legal text leave an object behind; C73_leaks says exactly how many, C73_clean_partial gives histories without leaks."
 },
 "C74": {
  "status": "partial",
  "note": "The drawing is added to earlier ones (C74_overdrawn_false), and the last line is painted twice (C68)."
 },
 "C76": {
  "status": "partial",
  "note": "False for the exit status, which is always 0 (C76_status_false). Everything about standard error is proved; C76_errors assumes that the output file is not an input."
 },
 "C77": {
  "status": "partial",
  "note": "False if the output file is one of the inputs (C77_input_lost_false, C77_self_compare_false). The file has no line ends (C63)."
 },
 "C78": {
  "status": "partial",
  "note": "False for expressions with elements that cannot be written in tables (C78_regex_false). Proved for DFA files, and for other types exactly if the alphabet is not empty and can be written in a table (C78_result_iff). One line per file of an equivalence report: false if a file cannot be parsed (C78_forged_line_false), proved otherwise."
 },
 "C83": {
  "status": "partial",
  "note": "Linear size of the NFA of an expression is false with nested + (C83_regex_linear_false); proved without + (C83_regex_linear_partial), and in general with the factor 2^(number of plus signs) (C83_regex_states). Everything else proved."
 },
 "C86": {
  "status": "partial",
  "note": "False for minimization (C86_minimize_false, C86_cli_minimized_false), for names with commas in both operands (C86_product_names_false) and for the order of targets after removing epsilon moves (C86_remove_epsilon_false). Proved: equality where the code is reproducible, equality up to names or order of targets elsewhere; minimization up to isomorphism is C17, and it is reproducible exactly if all reachable states are distinguishable (C86_minimize_partial, C86_minimize_iff)."
 },
 "C91": {
  "status": "partial",
  "note": "Tables: proved. Regular expressions: a linear bound is false for nested groups with + (C91_regex_linear_false, C91_regex_bound_false); proved if no group is followed by + (C91_regex_linear_partial), and in general with the factor 2^(number of )+) (C91_regex)."
 },
 "C104": {
  "status": "partial",
  "note": "The size of drawings is proved (C104_dfa, C104_nfa). That the canvas of the page shows the whole NFA is false with nine states (C104_page_false) or with 14 arrows between two neighbours; proved with at most 8 states and 13 arrows (C104_page_partial, which also has the negative part)."
 }
}