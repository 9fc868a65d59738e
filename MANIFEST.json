{
 "claims": [
  {
   "property": "C01",
   "status": "proved",
   "theorems": [
    "Dandy.C01_dfa_accepts_iff",
    "Dandy.C01_dfa_rejects_foreign",
    "Dandy.C01_dfa_run_unique"
   ],
   "note": "Word segmentation (accepts_graphemes) goes through the parameter seg; the theorem is about the element list."
  },
  {
   "property": "C02",
   "status": "proved",
   "theorems": [
    "Dandy.C02_nfa_accepts_iff",
    "Dandy.C02_nfa_rejects_foreign"
   ],
   "note": ""
  },
  {
   "property": "C03",
   "status": "partial",
   "theorems": [
    "Dandy.C03_history_accepting",
    "Dandy.C03_history_state",
    "Dandy.C03_returned_state",
    "Dandy.C03_step_multiple_empty_counterexample",
    "Dandy.C03_step_multiple_result_partial"
   ],
   "note": "The last clause is false: step_multiple(&[]) after an unknown element returns Some (C03_step_multiple_empty_counterexample); everything else is proved for all histories."
  },
  {
   "property": "C04",
   "status": "proved",
   "theorems": [
    "Dandy.C04_nfa_history_states",
    "Dandy.C04_nfa_history_accepting",
    "Dandy.C04_nfa_step_result"
   ],
   "note": ""
  },
  {
   "property": "C05",
   "status": "proved",
   "theorems": [
    "Dandy.C05_closure"
   ],
   "note": ""
  },
  {
   "property": "C06",
   "status": "proved",
   "theorems": [
    "Dandy.C06_dfa_step_all",
    "Dandy.C06_dfa_step_all_accepts",
    "Dandy.C06_nfa_step_all",
    "Dandy.C06_nfa_step_all_accepts"
   ],
   "note": ""
  },
  {
   "property": "C07",
   "status": "proved",
   "theorems": [
    "Dandy.C07_invert_complement",
    "Dandy.C07_invert_structure"
   ],
   "note": ""
  },
  {
   "property": "C08",
   "status": "proved",
   "theorems": [
    "Dandy.C08_product_none_iff",
    "Dandy.C08_product_lang"
   ],
   "note": ""
  },
  {
   "property": "C09",
   "status": "proved",
   "theorems": [
    "Dandy.C09_dfa_set_operations"
   ],
   "note": ""
  },
  {
   "property": "C10",
   "status": "proved",
   "theorems": [
    "Dandy.C10_product_wf"
   ],
   "note": ""
  },
  {
   "property": "C11",
   "status": "proved",
   "theorems": [
    "Dandy.C11_dfa_equivalent_to"
   ],
   "note": ""
  },
  {
   "property": "C12",
   "status": "proved",
   "theorems": [
    "Dandy.C12_dfa_reachability",
    "Dandy.C12_dfa_reachable_states"
   ],
   "note": ""
  },
  {
   "property": "C13",
   "status": "proved",
   "theorems": [
    "Dandy.C13_remove_unreachable"
   ],
   "note": ""
  },
  {
   "property": "C14",
   "status": "proved",
   "theorems": [
    "Dandy.C14_equivalence_classes",
    "Dandy.C14_state_classes"
   ],
   "note": ""
  },
  {
   "property": "C15",
   "status": "proved",
   "theorems": [
    "Dandy.C15_merge",
    "Dandy.C15_merge_keeps_one_per_class"
   ],
   "note": ""
  },
  {
   "property": "C16",
   "status": "proved",
   "theorems": [
    "Dandy.C16_minimize",
    "Dandy.C16_minimize_reduced"
   ],
   "note": ""
  },
  {
   "property": "C17",
   "status": "proved",
   "theorems": [
    "Dandy.C17_minimize_unique",
    "Dandy.C17_minimize_idempotent"
   ],
   "note": ""
  },
  {
   "property": "C18",
   "status": "proved",
   "theorems": [
    "Dandy.C18_to_nfa_lang",
    "Dandy.C18_to_nfa_structure"
   ],
   "note": ""
  },
  {
   "property": "C19",
   "status": "proved",
   "theorems": [
    "Dandy.C19_to_dfa",
    "Dandy.C19_to_dfa_shape",
    "Dandy.C19_to_dfa_to_nfa"
   ],
   "note": ""
  },
  {
   "property": "C20",
   "status": "proved",
   "theorems": [
    "Dandy.C20_nfa_equivalent_to"
   ],
   "note": ""
  },
  {
   "property": "C21",
   "status": "proved",
   "theorems": [
    "Dandy.C21_union_err",
    "Dandy.C21_union_lang",
    "Dandy.C21_union_names"
   ],
   "note": ""
  },
  {
   "property": "C22",
   "status": "proved",
   "theorems": [
    "Dandy.C22_intersection_none_iff",
    "Dandy.C22_intersection_lang"
   ],
   "note": ""
  },
  {
   "property": "C23",
   "status": "proved",
   "theorems": [
    "Dandy.C23_product_none_iff",
    "Dandy.C23_product_lang",
    "Dandy.C23_product_wf",
    "Dandy.C23_product_pairs",
    "Dandy.C23_product_or"
   ],
   "note": ""
  },
  {
   "property": "C24",
   "status": "partial",
   "theorems": [
    "Dandy.C24_doc_claim_false",
    "Dandy.C24_none_means_stuck_partial",
    "Dandy.C24_deterministic_partial",
    "Dandy.C24_doc_claim_iff"
   ],
   "note": "The documented claim is false (C24_doc_claim_false); proved instead: 'none' means that some run is stuck, the claim itself for deterministic first operands, and that it holds for a first operand exactly if no word has both a stuck and a complete run (C24_doc_claim_iff)."
  },
  {
   "property": "C25",
   "status": "proved",
   "theorems": [
    "Dandy.C25_remove_epsilon_moves",
    "Dandy.C25_untouched",
    "Dandy.C25_names"
   ],
   "note": ""
  },
  {
   "property": "C26",
   "status": "proved",
   "theorems": [
    "Dandy.C26_no_dead_states",
    "Dandy.C26_doc_claim_false"
   ],
   "note": ""
  },
  {
   "property": "C27",
   "status": "proved",
   "theorems": [
    "Dandy.C27_nfa_reachability",
    "Dandy.C27_nfa_reachable_states",
    "Dandy.C27_nfa_remove_unreachable"
   ],
   "note": ""
  },
  {
   "property": "C28",
   "status": "proved",
   "theorems": [
    "Dandy.C28_optimize"
   ],
   "note": ""
  },
  {
   "property": "C29",
   "status": "proved",
   "theorems": [
    "Dandy.C29_words_sound"
   ],
   "note": ""
  },
  {
   "property": "C30",
   "status": "proved",
   "theorems": [
    "Dandy.C30_words_increasing",
    "Dandy.C30_words_no_duplicates"
   ],
   "note": ""
  },
  {
   "property": "C31",
   "status": "proved",
   "theorems": [
    "Dandy.C31_words_complete",
    "Dandy.C31_words_no_gap"
   ],
   "note": ""
  },
  {
   "property": "C32",
   "status": "proved",
   "theorems": [
    "Dandy.C32_construction_panics_iff",
    "Dandy.C32_iterators_agree"
   ],
   "note": ""
  },
  {
   "property": "C33",
   "status": "proved",
   "theorems": [
    "Dandy.C33_complement_cover"
   ],
   "note": ""
  },
  {
   "property": "C34",
   "status": "proved",
   "theorems": [
    "Dandy.C34_to_nfa_accepts",
    "Dandy.C34_to_nfa_denotes"
   ],
   "note": ""
  },
  {
   "property": "C35",
   "status": "proved",
   "theorems": [
    "Dandy.C35_to_nfa_valid",
    "Dandy.C35_to_nfa_alphabet",
    "Dandy.C35_to_nfa_states"
   ],
   "note": ""
  },
  {
   "property": "C36",
   "status": "proved",
   "theorems": [
    "Dandy.C36_ascii",
    "Dandy.C36_accepts_iff",
    "Dandy.C36_language",
    "Dandy.C36_every_text",
    "Dandy.C36_nesting_bound",
    "Dandy.C36_to_nfa",
    "Dandy.C36_doc_example_false"
   ],
   "note": "For every segmentation function; also shows that the documentation example 0*1(0+ε) is wrong (C36_doc_example_false)."
  },
  {
   "property": "C37",
   "status": "partial",
   "theorems": [
    "Dandy.C37_roundtrip_partial",
    "Dandy.C37_stripped",
    "Dandy.C37_roundtrip_iff",
    "Dandy.C37_roundtrip_ascii_partial",
    "Dandy.C37_ascii_iff",
    "Dandy.C37_false_epsilon",
    "Dandy.C37_false_space",
    "Dandy.C37_false_mark",
    "Dandy.C37_roundtrip_unicode_partial",
    "Dandy.C37_unicode_sequence_iff"
   ],
   "note": "False in general (C37_false_epsilon, C37_false_space, C37_false_mark). Proved for expressions whose graphemes are printed unambiguously and whose printed text has no white space at its ends; in particular for ASCII graphemes. For unambiguous graphemes the exact condition is proved (C37_roundtrip_iff, C37_ascii_iff): the language survives iff the text has no white space at its ends or the language is empty; C37_stripped says what is lost otherwise."
  },
  {
   "property": "C38",
   "status": "proved",
   "theorems": [
    "Dandy.C38_succeeds_iff",
    "Dandy.C38_content",
    "Dandy.C38_error"
   ],
   "note": ""
  },
  {
   "property": "C39",
   "status": "proved",
   "theorems": [
    "Dandy.C39_succeeds_iff",
    "Dandy.C39_content",
    "Dandy.C39_error"
   ],
   "note": ""
  },
  {
   "property": "C40",
   "status": "proved",
   "theorems": [
    "Dandy.C40_iff",
    "Dandy.C40_roundtrip",
    "Dandy.C40_parsed",
    "Dandy.C40_false_empty_alphabet"
   ],
   "note": "The table of a DFA with an empty alphabet cannot be parsed (C40_false_empty_alphabet); the theorem carries this as a hypothesis."
  },
  {
   "property": "C41",
   "status": "proved",
   "theorems": [
    "Dandy.C41_iff",
    "Dandy.C41_roundtrip",
    "Dandy.C41_parsed"
   ],
   "note": ""
  },
  {
   "property": "C42",
   "status": "proved",
   "theorems": [
    "Dandy.C42_dfa_complete",
    "Dandy.C42_nfa_complete",
    "Dandy.C42_dfa_layout",
    "Dandy.C42_nfa_layout",
    "Dandy.C42_false_whitespace_line"
   ],
   "note": "White space means blanks and tabs, as in the parser; a line of other Unicode white space is not ignored (C42_false_whitespace_line)."
  },
  {
   "property": "C43",
   "status": "proved",
   "theorems": [
    "Dandy.C43_dfa_sound",
    "Dandy.C43_nfa_sound",
    "Dandy.C43_dfa_names",
    "Dandy.C43_nfa_names"
   ],
   "note": ""
  },
  {
   "property": "C44",
   "status": "proved",
   "theorems": [
    "Dandy.C44_valid",
    "Dandy.C44_total"
   ],
   "note": ""
  },
  {
   "property": "C45",
   "status": "proved",
   "theorems": [
    "Dandy.C45_nfa_reread",
    "Dandy.C45_dfa_reread",
    "Dandy.C45_false_empty_alphabet"
   ],
   "note": "For DFAs the source alphabets must not be empty; C45_false_empty_alphabet is the counterexample otherwise."
  },
  {
   "property": "C46",
   "status": "proved",
   "theorems": [
    "Dandy.C46_fresh_name"
   ],
   "note": ""
  },
  {
   "property": "C47",
   "status": "proved",
   "theorems": [
    "Dandy.C47_into_dfa",
    "Dandy.C47_into_nfa",
    "Dandy.C47_into_minimized_dfa",
    "Dandy.C47_into_minimized_dfa_if_not_dfa",
    "Dandy.C47_convert_to",
    "Dandy.C47_prepare_to_compare_with"
   ],
   "note": ""
  },
  {
   "property": "C48",
   "status": "proved",
   "theorems": [
    "Dandy.C48_verdict",
    "Dandy.C48_command",
    "Dandy.C48_command_errors",
    "Dandy.C48_texts"
   ],
   "note": ""
  },
  {
   "property": "C49",
   "status": "proved",
   "theorems": [
    "Dandy.C49_minimized"
   ],
   "note": ""
  },
  {
   "property": "C50",
   "status": "proved",
   "theorems": [
    "Dandy.C50_binary_op",
    "Dandy.C50_errors"
   ],
   "note": ""
  },
  {
   "property": "C51",
   "status": "proved",
   "theorems": [
    "Dandy.C51_test_files",
    "Dandy.C51_errors",
    "Dandy.C51_lines"
   ],
   "note": ""
  },
  {
   "property": "C52",
   "status": "partial",
   "theorems": [
    "Dandy.C52_last_n_components_partial",
    "Dandy.C52_false_absolute"
   ],
   "note": "False for absolute paths with fewer names than asked for (C52_false_absolute); proved for relative paths and for absolute paths with enough names."
  },
  {
   "property": "C53",
   "status": "proved",
   "theorems": [
    "Dandy.C53_handles_fresh",
    "Dandy.C53_new_handle"
   ],
   "note": ""
  },
  {
   "property": "C54",
   "status": "proved",
   "theorems": [
    "Dandy.C54_total",
    "Dandy.C54_success",
    "Dandy.C54_load_error",
    "Dandy.C54_fail_unchanged",
    "Dandy.C54_meaning",
    "Dandy.C54_isolated",
    "Dandy.C54_check_dfa_eq",
    "Dandy.C54_check_nfa_eq",
    "Dandy.C54_draw",
    "Dandy.C54_table",
    "Dandy.C54_minimize"
   ],
   "note": ""
  },
  {
   "property": "C55",
   "status": "proved",
   "theorems": [
    "Dandy.C55_place",
    "Dandy.C55_levels",
    "Dandy.C55_one_level"
   ],
   "note": ""
  },
  {
   "property": "C56",
   "status": "proved",
   "theorems": [
    "Dandy.C56_dfa",
    "Dandy.C56_nfa",
    "Dandy.C56_dfa_labels",
    "Dandy.C56_nfa_labels"
   ],
   "note": ""
  },
  {
   "property": "C57",
   "status": "partial",
   "theorems": [
    "Dandy.C57_dfa_partial",
    "Dandy.C57_nfa_partial",
    "Dandy.C57_dfa_fails_iff",
    "Dandy.C57_nfa_fails_iff",
    "Dandy.C57_dfa_false",
    "Dandy.C57_nfa_false"
   ],
   "note": "False: the picture panics if a label does not fit (C57_dfa_false, C57_nfa_false). Proved: the picture exists and shows the automaton if all labels fit; with ASCII elements and without epsilon moves, exactly when it panics."
  },
  {
   "property": "C58",
   "status": "proved",
   "theorems": [
    "Dandy.C58_alphabet_equal"
   ],
   "note": ""
  },
  {
   "property": "C59",
   "status": "proved",
   "theorems": [
    "Dandy.C59_dfa_aligned",
    "Dandy.C59_nfa_aligned"
   ],
   "note": ""
  },
  {
   "property": "C60",
   "status": "proved",
   "theorems": [
    "Dandy.C60_dfa_accepts_graphemes",
    "Dandy.C60_nfa_accepts_graphemes",
    "Dandy.C60_graphemes_only",
    "Dandy.C60_only_single",
    "Dandy.C60_agrees",
    "Dandy.C60_unambiguous",
    "Dandy.C60_false_joining",
    "Dandy.C60_regex_graphemes_only",
    "Dandy.C60_regex_accepts_graphemes"
   ],
   "note": "For every segmentation satisfying Clusters. The claim of the documentation that graphemes_only makes accepts_graphemes and accepts interchangeable is refuted by C60_false_joining."
  },
  {
   "property": "C61",
   "status": "proved",
   "theorems": [
    "Dandy.C61_load_error",
    "Dandy.C61_file_error",
    "Dandy.C61_load_succeeds_iff",
    "Dandy.C61_load_content"
   ],
   "note": ""
  },
  {
   "property": "C62",
   "status": "proved",
   "theorems": [
    "Dandy.C62_enumerate_file",
    "Dandy.C62_enumerate_regex",
    "Dandy.C62_errors",
    "Dandy.C62_first_words_unique"
   ],
   "note": ""
  },
  {
   "property": "C63",
   "status": "partial",
   "theorems": [
    "Dandy.C63_out_file_partial",
    "Dandy.C63_out_file_iff_partial",
    "Dandy.C63_false_line_ends"
   ],
   "note": "False when there is more than one line (C63_false_line_ends); proved: the file contains exactly the printed lines joined without line ends."
  },
  {
   "property": "C64",
   "status": "partial",
   "theorems": [
    "Dandy.C64_order_false",
    "Dandy.C64_dfa_partial",
    "Dandy.C64_nfa_partial",
    "Dandy.C64_dfa_distinct_partial",
    "Dandy.C64_nfa_distinct_partial"
   ],
   "note": "False (C64_order_false). Proved for all automata: two pictures show the same arrows and have the same last line (labels that fit), and picture and drawing are determined if no two arrows have the same right end. What does not depend on the order is also C56."
  },
  {
   "property": "C65",
   "status": "partial",
   "theorems": [
    "Dandy.C65_initial_false",
    "Dandy.C65_loops_false",
    "Dandy.C65_nfa_partial",
    "Dandy.C65_nfa_lang_partial",
    "Dandy.C65_dfa_partial",
    "Dandy.C65_alphabet_false",
    "Dandy.C65_bars_false"
   ],
   "note": "False for the initial state, for labels of loops, for the elements of a DFA, and for labels with bars (the _false theorems). Proved: if names and labels are legible (no blanks, bars, line ends; labels fit), the picture determines states, accepting states, all labels between different states and where the loops are; for DFAs over the same elements all runs; and with the initial state and the elements on loops, the language."
  },
  {
   "property": "C66",
   "status": "proved",
   "theorems": [
    "Dandy.C66_dfa_lines",
    "Dandy.C66_nfa_lines",
    "Dandy.C66_dfa",
    "Dandy.C66_nfa",
    "Dandy.C66_dfa_texts",
    "Dandy.C66_nfa_texts",
    "Dandy.C66_left_arrow",
    "Dandy.C66_dfa_default",
    "Dandy.C66_nfa_default"
   ],
   "note": "Exact rational arithmetic instead of f32; for all sizes satisfying Options.Sensible, which the default sizes do."
  },
  {
   "property": "C67",
   "status": "partial",
   "theorems": [
    "Dandy.C67_first_table",
    "Dandy.C67_second_table",
    "Dandy.C67_odd",
    "Dandy.C67_aab",
    "Dandy.C67_regexes",
    "Dandy.C67_regex_third",
    "Dandy.C67_once_false",
    "Dandy.C67_symmetric_difference",
    "Dandy.C67_main1"
   ],
   "note": "All examples are right except the remark about strings containing 1 once (C67_once_false) and the +-expression of C36."
  },
  {
   "property": "C68",
   "status": "partial",
   "theorems": [
    "Dandy.C68_colours",
    "Dandy.C68_egui",
    "Dandy.C68_set_color",
    "Dandy.C68_canvas_partial",
    "Dandy.C68_canvas_false",
    "Dandy.C68_from_element_false"
   ],
   "note": "False on a canvas: the last outline is stroked again in the text colour (C68_canvas_false), and from_element does not centre the texts (C68_from_element_false). Proved: everything else is painted as asked for; egui exactly."
  },
  {
   "property": "C69",
   "status": "proved",
   "theorems": [
    "Dandy.C69_canvas_panics_iff"
   ],
   "note": ""
  },
  {
   "property": "C70",
   "status": "proved",
   "theorems": [
    "Dandy.C70_total",
    "Dandy.C70_dfa",
    "Dandy.C70_nfa",
    "Dandy.C70_examples"
   ],
   "note": ""
  },
  {
   "property": "C71",
   "status": "partial",
   "theorems": [
    "Dandy.C71_nfa_to_dfa_iff",
    "Dandy.C71_regex_iff",
    "Dandy.C71_nfa_to_dfa",
    "Dandy.C71_message_line",
    "Dandy.C71_empty_alphabet_false",
    "Dandy.C71_minimize",
    "Dandy.C71_regex"
   ],
   "note": "False for NFAs without elements (C71_empty_alphabet_false): the table without columns cannot be read back. Expressions: their elements must be names that can be written in tables. These are the only exceptions (C71_nfa_to_dfa_iff, C71_regex_iff). Everything else proved."
  },
  {
   "property": "C72",
   "status": "proved",
   "theorems": [
    "Dandy.C72_minimize_check",
    "Dandy.C72_regex_minimal"
   ],
   "note": ""
  },
  {
   "property": "C73",
   "status": "partial",
   "theorems": [
    "Dandy.C73_leaks",
    "Dandy.C73_clean_partial",
    "Dandy.C73_growth_false"
   ],
   "note": "The full claim is false (C73_growth_false): minimizing, converting expressions, drawing, and comparisons with exactly one legal text leave an object behind; C73_leaks says exactly how many, C73_clean_partial gives histories without leaks."
  },
  {
   "property": "C74",
   "status": "partial",
   "theorems": [
    "Dandy.C74_visualize_partial",
    "Dandy.C74_overdrawn_false"
   ],
   "note": "The drawing is added to earlier ones (C74_overdrawn_false), and the last line is painted twice (C68)."
  },
  {
   "property": "C75",
   "status": "proved",
   "theorems": [
    "Dandy.C75_answers",
    "Dandy.C75_areas",
    "Dandy.C75_edit",
    "Dandy.C75_stale_false"
   ],
   "note": ""
  },
  {
   "property": "C76",
   "status": "partial",
   "theorems": [
    "Dandy.C76_total",
    "Dandy.C76_errors",
    "Dandy.C76_create",
    "Dandy.C76_status_false",
    "Dandy.C76_reference_line"
   ],
   "note": "False for the exit status, which is always 0 (C76_status_false). Everything about standard error is proved; C76_errors assumes that the output file is not an input."
  },
  {
   "property": "C77",
   "status": "partial",
   "theorems": [
    "Dandy.C77_out_partial",
    "Dandy.C77_less_logs",
    "Dandy.C77_input_lost_false",
    "Dandy.C77_self_compare_false",
    "Dandy.C77_test_reports"
   ],
   "note": "False if the output file is one of the inputs (C77_input_lost_false, C77_self_compare_false). The file has no line ends (C63)."
  },
  {
   "property": "C78",
   "status": "partial",
   "theorems": [
    "Dandy.C78_result",
    "Dandy.C78_enumerate",
    "Dandy.C78_enumerate_regex",
    "Dandy.C78_test",
    "Dandy.C78_equivalence",
    "Dandy.C78_report_lines_partial",
    "Dandy.C78_pipeline",
    "Dandy.C78_forged_line_false",
    "Dandy.C78_regex_false",
    "Dandy.C78_result_iff"
   ],
   "note": "False for expressions with elements that cannot be written in tables (C78_regex_false). Proved for DFA files, and for other types exactly if the alphabet is not empty and can be written in a table (C78_result_iff). One line per file of an equivalence report: false if a file cannot be parsed (C78_forged_line_false), proved otherwise."
  },
  {
   "property": "C79",
   "status": "proved",
   "theorems": [
    "Dandy.C79_dfa_table_reparse",
    "Dandy.C79_nfa_table_reparse",
    "Dandy.C79_dfa_minimize_eq",
    "Dandy.C79_dfa_to_nfa_to_dfa",
    "Dandy.C79_nfa_to_dfa_to_nfa",
    "Dandy.C79_nfa_remove_epsilon_transitions",
    "Dandy.C79_nfa_remove_unreachable_states",
    "Dandy.C79_dfa_binary_ops",
    "Dandy.C79_nfa_binary_ops",
    "Dandy.C79_dfa_self",
    "Dandy.C79_dfa_inversion_tautologies",
    "Dandy.C79_dfa_inversion_iff",
    "Dandy.C79_counter",
    "Dandy.C79_nfa_words",
    "Dandy.C79_regex_iff",
    "Dandy.C79_regex",
    "Dandy.C79_regex_parse",
    "Dandy.C79_subset_construction_iff",
    "Dandy.C79_subset_construction"
   ],
   "note": ""
  },
  {
   "property": "C80",
   "status": "proved",
   "theorems": [
    "Dandy.C80_start",
    "Dandy.C80_frames"
   ],
   "note": ""
  },
  {
   "property": "C81",
   "status": "proved",
   "theorems": [
    "Dandy.C81_dfa_error_iff",
    "Dandy.C81_dfa",
    "Dandy.C81_nfa_error_iff",
    "Dandy.C81_nfa",
    "Dandy.C81_regex",
    "Dandy.C81_regex_stops",
    "Dandy.C81_eof"
   ],
   "note": ""
  },
  {
   "property": "C82",
   "status": "proved",
   "theorems": [
    "Dandy.C82_total",
    "Dandy.C82_dfa_laws",
    "Dandy.C82_nfa_laws",
    "Dandy.C82_only_laws",
    "Dandy.C82_nfa_only_laws",
    "Dandy.C82_empty",
    "Dandy.C82_dfa_equivalence",
    "Dandy.C82_nfa_equivalence"
   ],
   "note": ""
  },
  {
   "property": "C83",
   "status": "partial",
   "theorems": [
    "Dandy.C83_regex_states",
    "Dandy.C83_regex_linear_partial",
    "Dandy.C83_regex_linear_false",
    "Dandy.C83_minimize",
    "Dandy.C83_nfa_product",
    "Dandy.C83_remove_epsilon_moves",
    "Dandy.C83_to_dfa_large"
   ],
   "note": "Linear size of the NFA of an expression is false with nested + (C83_regex_linear_false); proved without + (C83_regex_linear_partial), and in general with the factor 2^(number of plus signs) (C83_regex_states). Everything else proved."
  },
  {
   "property": "C84",
   "status": "proved",
   "theorems": [
    "Dandy.C84_finite_iff_short",
    "Dandy.C84_dfa_finite_iff_short",
    "Dandy.C84_words_end",
    "Dandy.C84_words_count",
    "Dandy.C84_words_none"
   ],
   "note": ""
  },
  {
   "property": "C85",
   "status": "proved",
   "theorems": [
    "Dandy.C85_words_work",
    "Dandy.C85_words_length",
    "Dandy.C85_counts_output"
   ],
   "note": ""
  },
  {
   "property": "C86",
   "status": "partial",
   "theorems": [
    "Dandy.C86_dfa_remove_unreachable",
    "Dandy.C86_nfa_remove_unreachable",
    "Dandy.C86_dfa_product",
    "Dandy.C86_dfa_product_names",
    "Dandy.C86_product_names_false",
    "Dandy.C86_nfa_product",
    "Dandy.C86_nfa_product_names",
    "Dandy.C86_minimize_false",
    "Dandy.C86_minimize_partial",
    "Dandy.C86_minimize_iff",
    "Dandy.C86_remove_epsilon_moves",
    "Dandy.C86_optimize",
    "Dandy.C86_remove_epsilon_false",
    "Dandy.C86_cli_binary_op",
    "Dandy.C86_cli_minimized_false"
   ],
   "note": "False for minimization (C86_minimize_false, C86_cli_minimized_false), for names with commas in both operands (C86_product_names_false) and for the order of targets after removing epsilon moves (C86_remove_epsilon_false). Proved: equality where the code is reproducible, equality up to names or order of targets elsewhere; minimization up to isomorphism is C17, and it is reproducible exactly if all reachable states are distinguishable (C86_minimize_partial, C86_minimize_iff)."
  },
  {
   "property": "C87",
   "status": "proved",
   "theorems": [
    "Dandy.C87_nfa",
    "Dandy.C87_dfa",
    "Dandy.C87_default",
    "Dandy.C87_end_tips_false",
    "Dandy.C87_blanks_false",
    "Dandy.C87_eps_false",
    "Dandy.C87_dfa_canvas",
    "Dandy.C87_nfa_canvas",
    "Dandy.C87_dfa_egui",
    "Dandy.C87_nfa_egui"
   ],
   "note": ""
  },
  {
   "property": "C88",
   "status": "proved",
   "theorems": [
    "Dandy.C88_no_warnings",
    "Dandy.C88_stderr",
    "Dandy.C88_lines"
   ],
   "note": ""
  },
  {
   "property": "C89",
   "status": "proved",
   "theorems": [
    "Dandy.C89_even",
    "Dandy.C89_init_term",
    "Dandy.C89_first",
    "Dandy.C89_example2",
    "Dandy.C89_example3",
    "Dandy.C89_tree"
   ],
   "note": ""
  },
  {
   "property": "C90",
   "status": "proved",
   "theorems": [
    "Dandy.C90_dfa_calls",
    "Dandy.C90_dfa_none",
    "Dandy.C90_dfa_pure",
    "Dandy.C90_nfa_calls",
    "Dandy.C90_nfa_none",
    "Dandy.C90_nfa_pure"
   ],
   "note": ""
  },
  {
   "property": "C91",
   "status": "partial",
   "theorems": [
    "Dandy.C91_dfa",
    "Dandy.C91_nfa",
    "Dandy.C91_regex_steps",
    "Dandy.C91_regex_linear_partial",
    "Dandy.C91_regex",
    "Dandy.C91_regex_linear_false",
    "Dandy.C91_regex_bound_false"
   ],
   "note": "Tables: proved. Regular expressions: a linear bound is false for nested groups with + (C91_regex_linear_false, C91_regex_bound_false); proved if no group is followed by + (C91_regex_linear_partial), and in general with the factor 2^(number of )+) (C91_regex)."
  },
  {
   "property": "C92",
   "status": "proved",
   "theorems": [
    "Dandy.C92_reachable",
    "Dandy.C92_equivalent",
    "Dandy.C92_product",
    "Dandy.C92_minimize",
    "Dandy.C92_complete",
    "Dandy.C92_equivalent_quadratic"
   ],
   "note": ""
  },
  {
   "property": "C93",
   "status": "proved",
   "theorems": [
    "Dandy.C93_accepts",
    "Dandy.C93_reachable",
    "Dandy.C93_optimize",
    "Dandy.C93_binary",
    "Dandy.C93_subsets",
    "Dandy.C93_subsets_lower",
    "Dandy.C93_exponential",
    "Dandy.C93_complete"
   ],
   "note": ""
  },
  {
   "property": "C94",
   "status": "proved",
   "theorems": [
    "Dandy.C94_rules",
    "Dandy.C94_assumptions",
    "Dandy.C94_ascii_assumptions",
    "Dandy.C94_pairs",
    "Dandy.C94_dfa_interchangeable",
    "Dandy.C94_nfa_interchangeable",
    "Dandy.C94_joining",
    "Dandy.C94_ascii",
    "Dandy.C94_literal",
    "Dandy.C94_prepend"
   ],
   "note": ""
  },
  {
   "property": "C95",
   "status": "proved",
   "theorems": [
    "Dandy.C95_exact",
    "Dandy.C95_unambiguous",
    "Dandy.C95_expressible",
    "Dandy.C95_order",
    "Dandy.C95_program_options_first",
    "Dandy.C95_regex_argument",
    "Dandy.C95_letter_t",
    "Dandy.C95_documented",
    "Dandy.C95_pipeline"
   ],
   "note": ""
  },
  {
   "property": "C96",
   "status": "proved",
   "theorems": [
    "Dandy.C96_dead_iff",
    "Dandy.C96_states",
    "Dandy.C96_moves",
    "Dandy.C96_epsilon_unchanged_iff",
    "Dandy.C96_nfa_unchanged_iff",
    "Dandy.C96_dfa_unchanged_iff",
    "Dandy.C96_optimize_unchanged_iff",
    "Dandy.C96_optimize_twice",
    "Dandy.C96_opposite_order",
    "Dandy.C96_optimize_once_false"
   ],
   "note": ""
  },
  {
   "property": "C97",
   "status": "proved",
   "theorems": [
    "Dandy.C97_files",
    "Dandy.C97_powerset",
    "Dandy.C97_at_once",
    "Dandy.C97_equivalence_false",
    "Dandy.C97_compile",
    "Dandy.C97_check"
   ],
   "note": ""
  },
  {
   "property": "C98",
   "status": "proved",
   "theorems": [
    "Dandy.C98_enough",
    "Dandy.C98_at_most",
    "Dandy.C98_nesting",
    "Dandy.C98_exact",
    "Dandy.C98_ascii",
    "Dandy.C98_unicode",
    "Dandy.C98_trees",
    "Dandy.C98_walk",
    "Dandy.C98_open",
    "Dandy.C98_nested",
    "Dandy.C98_nested_stars"
   ],
   "note": ""
  },
  {
   "property": "C99",
   "status": "proved",
   "theorems": [
    "Dandy.C99_to_nfa_least",
    "Dandy.C99_to_string",
    "Dandy.C99_to_string_linear",
    "Dandy.C99_to_string_exponential",
    "Dandy.C99_dfa_table",
    "Dandy.C99_nfa_table",
    "Dandy.C99_long_name",
    "Dandy.C99_dfa_picture",
    "Dandy.C99_nfa_picture",
    "Dandy.C99_to_nfa",
    "Dandy.C99_to_nfa_quadratic",
    "Dandy.C99_to_nfa_nested"
   ],
   "note": ""
  },
  {
   "property": "C100",
   "status": "proved",
   "theorems": [
    "Dandy.C100_round32",
    "Dandy.C100_round32_near",
    "Dandy.C100_dfa",
    "Dandy.C100_nfa",
    "Dandy.C100_default",
    "Dandy.C100_window",
    "Dandy.C100_same_calls",
    "Dandy.C100_too_many_states"
   ],
   "note": ""
  },
  {
   "property": "C101",
   "status": "proved",
   "theorems": [
    "Dandy.C101_same",
    "Dandy.C101_checked",
    "Dandy.C101_numbers",
    "Dandy.C101_total",
    "Dandy.C101_overwritten"
   ],
   "note": ""
  },
  {
   "property": "C102",
   "status": "proved",
   "theorems": [
    "Dandy.C102_page_and_program",
    "Dandy.C102_carriage_return_false",
    "Dandy.C102_minimized",
    "Dandy.C102_converted",
    "Dandy.C102_regex",
    "Dandy.C102_empty_alphabet_false"
   ],
   "note": ""
  },
  {
   "property": "C103",
   "status": "proved",
   "theorems": [
    "Dandy.C103_dfa",
    "Dandy.C103_nfa",
    "Dandy.C103_layout"
   ],
   "note": ""
  },
  {
   "property": "C104",
   "status": "partial",
   "theorems": [
    "Dandy.C104_dfa",
    "Dandy.C104_nfa",
    "Dandy.C104_page_partial",
    "Dandy.C104_page_false"
   ],
   "note": "The size of drawings is proved (C104_dfa, C104_nfa). That the canvas of the page shows the whole NFA is false with nine states (C104_page_false) or with 14 arrows between two neighbours; proved with at most 8 states and 13 arrows (C104_page_partial, which also has the negative part)."
  },
  {
   "property": "C105",
   "status": "proved",
   "theorems": [
    "Dandy.C105_dfa_evaluator",
    "Dandy.C105_nfa_evaluator",
    "Dandy.C105_dfa_operations",
    "Dandy.C105_nfa_operations",
    "Dandy.C105_words"
   ],
   "note": ""
  },
  {
   "property": "C106",
   "status": "proved",
   "theorems": [
    "Dandy.C106_written",
    "Dandy.C106_dfa",
    "Dandy.C106_nfa",
    "Dandy.C106_dfa_size",
    "Dandy.C106_nfa_size",
    "Dandy.C106_compare",
    "Dandy.C106_minimize",
    "Dandy.C106_accepts"
   ],
   "note": ""
  },
  {
   "property": "C107",
   "status": "proved",
   "theorems": [
    "Dandy.C107_at_least",
    "Dandy.C107_at_most",
    "Dandy.C107_at_most_loopless",
    "Dandy.C107_full",
    "Dandy.C107_full_loopless",
    "Dandy.C107_dfa",
    "Dandy.C107_nfa",
    "Dandy.C107_least_false"
   ],
   "note": ""
  },
  {
   "property": "C108",
   "status": "proved",
   "theorems": [
    "Dandy.C108_place",
    "Dandy.C108_place_crowd",
    "Dandy.C108_dfa",
    "Dandy.C108_nfa",
    "Dandy.C108_dfa_art",
    "Dandy.C108_nfa_art"
   ],
   "note": ""
  },
  {
   "property": "C109",
   "status": "proved",
   "theorems": [
    "Dandy.C109_dfa",
    "Dandy.C109_nfa",
    "Dandy.C109_states",
    "Dandy.C109_first",
    "Dandy.C109_command",
    "Dandy.C109_words",
    "Dandy.C109_first_words",
    "Dandy.C109_optimal"
   ],
   "note": ""
  },
  {
   "property": "C110",
   "status": "proved",
   "theorems": [
    "Dandy.C110_dfa",
    "Dandy.C110_dfa_rearranged",
    "Dandy.C110_dfa_text",
    "Dandy.C110_nfa",
    "Dandy.C110_nfa_rearranged",
    "Dandy.C110_nfa_text"
   ],
   "note": ""
  },
  {
   "property": "C111",
   "status": "proved",
   "theorems": [
    "Dandy.C111_dfa",
    "Dandy.C111_nfa",
    "Dandy.C111_regex",
    "Dandy.C111_minimal"
   ],
   "note": ""
  },
  {
   "property": "C112",
   "status": "proved",
   "theorems": [
    "Dandy.C112_dfa_accepts",
    "Dandy.C112_dfa_operations",
    "Dandy.C112_dfa_binary",
    "Dandy.C112_nfa_accepts",
    "Dandy.C112_nfa_operations",
    "Dandy.C112_nfa_binary",
    "Dandy.C112_words",
    "Dandy.C112_regex"
   ],
   "note": ""
  },
  {
   "property": "C113",
   "status": "proved",
   "theorems": [
    "Dandy.C113_dfa",
    "Dandy.C113_dfa_equivalent",
    "Dandy.C113_dfa_product",
    "Dandy.C113_nfa",
    "Dandy.C113_nfa_binary",
    "Dandy.C113_nfa_product"
   ],
   "note": ""
  },
  {
   "property": "C114",
   "status": "proved",
   "theorems": [
    "Dandy.C114_to_dfa_iff",
    "Dandy.C114_dfa_iff",
    "Dandy.C114_again",
    "Dandy.C114_remove_unreachable",
    "Dandy.C114_nfa_table",
    "Dandy.C114_dfa_table",
    "Dandy.C114_normal_form",
    "Dandy.C114_normal_form_nfa",
    "Dandy.C114_tables"
   ],
   "note": ""
  },
  {
   "property": "C115",
   "status": "proved",
   "theorems": [
    "Dandy.C115_compose",
    "Dandy.C115_bar",
    "Dandy.C115_replace",
    "Dandy.C115_laws",
    "Dandy.C115_unicode",
    "Dandy.C115_ascii",
    "Dandy.C115_conditions_false"
   ],
   "note": ""
  },
  {
   "property": "C116",
   "status": "proved",
   "theorems": [
    "Dandy.C116_filtered",
    "Dandy.C116_nfa_filtered",
    "Dandy.C116_included",
    "Dandy.C116_union",
    "Dandy.C116_inverse"
   ],
   "note": ""
  },
  {
   "property": "C117",
   "status": "proved",
   "theorems": [
    "Dandy.C117_dfa",
    "Dandy.C117_nfa",
    "Dandy.C117_simplified",
    "Dandy.C117_converted",
    "Dandy.C117_after_unknown_false"
   ],
   "note": ""
  },
  {
   "property": "C118",
   "status": "proved",
   "theorems": [
    "Dandy.C118_product",
    "Dandy.C118_to_dfa",
    "Dandy.C118_nfa_product"
   ],
   "note": ""
  },
  {
   "property": "C119",
   "status": "proved",
   "theorems": [
    "Dandy.C119_dfa_moved",
    "Dandy.C119_nfa_moved",
    "Dandy.C119_dfa_scaled",
    "Dandy.C119_nfa_scaled",
    "Dandy.C119_dfa_styled",
    "Dandy.C119_nfa_styled",
    "Dandy.C119_dfa_tips",
    "Dandy.C119_nfa_tips"
   ],
   "note": ""
  },
  {
   "property": "C120",
   "status": "proved",
   "theorems": [
    "Dandy.C120_dfa",
    "Dandy.C120_nfa",
    "Dandy.C120_default",
    "Dandy.C120_flat_dfa_false",
    "Dandy.C120_flat_nfa_false"
   ],
   "note": ""
  },
  {
   "property": "C121",
   "status": "proved",
   "theorems": [
    "Dandy.C121_dfa",
    "Dandy.C121_nfa",
    "Dandy.C121_default",
    "Dandy.C121_margin_false"
   ],
   "note": ""
  },
  {
   "property": "C122",
   "status": "proved",
   "theorems": [
    "Dandy.C122_dfa_included",
    "Dandy.C122_dfa_disjoint",
    "Dandy.C122_dfa_universal",
    "Dandy.C122_nfa",
    "Dandy.C122_nfa_universal",
    "Dandy.C122_optimal",
    "Dandy.C122_regex"
   ],
   "note": ""
  },
  {
   "property": "C123",
   "status": "proved",
   "theorems": [
    "Dandy.C123_tables",
    "Dandy.C123_wrong_table",
    "Dandy.C123_one_line",
    "Dandy.C123_expression",
    "Dandy.C123_one_word",
    "Dandy.C123_expression_false"
   ],
   "note": ""
  },
  {
   "property": "C124",
   "status": "proved",
   "theorems": [
    "Dandy.C124_dictionary",
    "Dandy.C124_texts",
    "Dandy.C124_blank_false",
    "Dandy.C124_prepend_false"
   ],
   "note": ""
  },
  {
   "property": "C125",
   "status": "proved",
   "theorems": [
    "Dandy.C125_parse",
    "Dandy.C125_defects",
    "Dandy.C125_load",
    "Dandy.C125_kind_false",
    "Dandy.C125_equivalence",
    "Dandy.C125_verdict",
    "Dandy.C125_wasm",
    "Dandy.C125_blanks_false"
   ],
   "note": ""
  },
  {
   "property": "C126",
   "status": "proved",
   "theorems": [
    "Dandy.C126_equations",
    "Dandy.C126_laws",
    "Dandy.C126_letters_false"
   ],
   "note": ""
  },
  {
   "property": "C127",
   "status": "proved",
   "theorems": [
    "Dandy.C127_stable",
    "Dandy.C127_same_text",
    "Dandy.C127_ascii",
    "Dandy.C127_text_language",
    "Dandy.C127_tree_false",
    "Dandy.C127_mark_false",
    "Dandy.C127_unicode"
   ],
   "note": ""
  },
  {
   "property": "C128",
   "status": "proved",
   "theorems": [
    "Dandy.C128_pump",
    "Dandy.C128_lengths",
    "Dandy.C128_no_operator",
    "Dandy.C128_enumeration",
    "Dandy.C128_sharp",
    "Dandy.C128_star_false"
   ],
   "note": ""
  },
  {
   "property": "C129",
   "status": "proved",
   "theorems": [
    "Dandy.C129_table",
    "Dandy.C129_enumeration",
    "Dandy.C129_dfa_enumeration",
    "Dandy.C129_place",
    "Dandy.C129_dfa_place",
    "Dandy.C129_nfa",
    "Dandy.C129_invert",
    "Dandy.C129_operations",
    "Dandy.C129_equivalent",
    "Dandy.C129_equal_counts_false"
   ],
   "note": ""
  },
  {
   "property": "C130",
   "status": "proved",
   "theorems": [
    "Dandy.C130_inclusion",
    "Dandy.C130_unique",
    "Dandy.C130_arden",
    "Dandy.C130_least",
    "Dandy.C130_unguarded_false"
   ],
   "note": ""
  },
  {
   "property": "C131",
   "status": "proved",
   "theorems": [
    "Dandy.C131_states",
    "Dandy.C131_same_state",
    "Dandy.C131_dfa_lower",
    "Dandy.C131_nfa_lower",
    "Dandy.C131_counting",
    "Dandy.C131_no_counting"
   ],
   "note": ""
  },
  {
   "property": "C132",
   "status": "proved",
   "theorems": [
    "Dandy.C132_contains",
    "Dandy.C132_contained",
    "Dandy.C132_exact",
    "Dandy.C132_dfa",
    "Dandy.C132_solves",
    "Dandy.C132_epsilon_false",
    "Dandy.C132_exists",
    "Dandy.C132_unicode"
   ],
   "note": ""
  },
  {
   "property": "C133",
   "status": "proved",
   "theorems": [
    "Dandy.C133_suite",
    "Dandy.C133_shorter_false",
    "Dandy.C133_dfa",
    "Dandy.C133_exists"
   ],
   "note": ""
  },
  {
   "property": "C134",
   "status": "proved",
   "theorems": [
    "Dandy.C134_padded",
    "Dandy.C134_equivalent",
    "Dandy.C134_operations",
    "Dandy.C134_complement",
    "Dandy.C134_unpadded_false",
    "Dandy.C134_bar"
   ],
   "note": ""
  }
 ]
}