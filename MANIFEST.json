{
 "claims": [
  {
   "property": "C01",
   "status": "proved",
   "theorems": [
    "Verif.Props.C01_ok_reads_everything",
    "Verif.Props.C01_short_match_is_error"
   ],
   "note": ""
  },
  {
   "property": "C02",
   "status": "proved",
   "theorems": [
    "Verif.Props.C02_old_tokens_untouched"
   ],
   "note": ""
  },
  {
   "property": "C03",
   "status": "proved",
   "theorems": [
    "Verif.Props.C03_appends",
    "Verif.Props.C03_independent_of_vector"
   ],
   "note": ""
  },
  {
   "property": "C04",
   "status": "proved",
   "theorems": [
    "Verif.Props.C04_ok_iff_meaning",
    "Verif.Props.C04_err_iff_meaning",
    "Verif.Props.C04_data_unique"
   ],
   "note": "Refinement in both directions between parse and the relational meaning Spec.Run, which has no vector, truncation or error bookkeeping."
  },
  {
   "property": "C05",
   "status": "proved",
   "theorems": [
    "Verif.Props.C05_data_well_nested",
    "Verif.Props.C05_node_ranges"
   ],
   "note": ""
  },
  {
   "property": "C06",
   "status": "proved",
   "theorems": [
    "Verif.Props.C06_ranges_in_text",
    "Verif.Props.C06_ranges_in_match"
   ],
   "note": "Items left behind by a parse that fails are covered by C81_items."
  },
  {
   "property": "C07",
   "status": "proved",
   "theorems": [
    "Verif.Props.C07_source_order"
   ],
   "note": ""
  },
  {
   "property": "C08",
   "status": "proved",
   "theorems": [
    "Verif.Props.C08_error_in_text",
    "Verif.Props.C08_rule_error_in_text"
   ],
   "note": ""
  },
  {
   "property": "C09",
   "status": "proved",
   "theorems": [
    "Verif.Props.C09_deepest_error",
    "Verif.Props.C09_trace_unique",
    "Verif.Props.C09_select_reports_last_deepest"
   ],
   "note": ""
  },
  {
   "property": "C10",
   "status": "proved",
   "theorems": [
    "Verif.Props.C10_select_matches_iff",
    "Verif.Props.C10_select_refuses_iff",
    "Verif.Props.C10_select_empty"
   ],
   "note": ""
  },
  {
   "property": "C11",
   "status": "proved",
   "theorems": [
    "Verif.Props.C11_sequence_matches_iff",
    "Verif.Props.C11_sequence_refuses_iff"
   ],
   "note": ""
  },
  {
   "property": "C12",
   "status": "proved",
   "theorems": [
    "Verif.Props.C12_optional_matches_iff",
    "Verif.Props.C12_optional_never_fails"
   ],
   "note": ""
  },
  {
   "property": "C13",
   "status": "proved",
   "theorems": [
    "Verif.Props.C13_not_matches_iff",
    "Verif.Props.C13_not_fails_iff"
   ],
   "note": ""
  },
  {
   "property": "C14",
   "status": "proved",
   "theorems": [
    "Verif.Props.C14_repeat_optional_matches_iff",
    "Verif.Props.C14_repeat_optional_never_fails",
    "Verif.Props.C14_repeat_matches_iff",
    "Verif.Props.C14_repeat_refuses_iff"
   ],
   "note": ""
  },
  {
   "property": "C15",
   "status": "proved",
   "theorems": [
    "Verif.Props.C15_separateBy_matches_iff",
    "Verif.Props.C15_separateBy_refuses_iff"
   ],
   "note": ""
  },
  {
   "property": "C16",
   "status": "proved",
   "theorems": [
    "Verif.Props.C16_tag_matches_iff",
    "Verif.Props.C16_tag_fails_iff",
    "Verif.Props.C16_notTag_matches_iff",
    "Verif.Props.C16_notTag_fails_iff"
   ],
   "note": ""
  },
  {
   "property": "C17",
   "status": "proved",
   "theorems": [
    "Verif.Props.C17_untilAny_matches_iff",
    "Verif.Props.C17_untilAny_fails_iff",
    "Verif.Props.C17_untilAnyOrWs_matches_iff",
    "Verif.Props.C17_untilAnyOrWs_fails_iff"
   ],
   "note": ""
  },
  {
   "property": "C18",
   "status": "proved",
   "theorems": [
    "Verif.Props.C18_whitespace_characters",
    "Verif.Props.C18_whitespace_matches_iff",
    "Verif.Props.C18_whitespace_fails_iff"
   ],
   "note": ""
  },
  {
   "property": "C19",
   "status": "proved",
   "theorems": [
    "Verif.Props.C19_round_trip",
    "Verif.Props.C19_text_matches",
    "Verif.Props.C19_text_fails_iff",
    "Verif.Props.C19_text_reads_quoted"
   ],
   "note": ""
  },
  {
   "property": "C20",
   "status": "proved",
   "theorems": [
    "Verif.Props.C20_node_matches_iff",
    "Verif.Props.C20_node_fails_iff"
   ],
   "note": ""
  },
  {
   "property": "C21",
   "status": "proved",
   "theorems": [
    "Verif.Props.C21_lines_matches",
    "Verif.Props.C21_lines_refuses",
    "Verif.Props.C21_lines_matches_iff",
    "Verif.Props.C21_lines_refuses_iff"
   ],
   "note": ""
  },
  {
   "property": "C22",
   "status": "proved",
   "theorems": [
    "Verif.Props.C22_block_matches",
    "Verif.Props.C22_block_refuses",
    "Verif.Props.C22_default_settings",
    "Verif.Props.C22_line_of_spaces",
    "Verif.Props.C22_block_matches_iff",
    "Verif.Props.C22_block_refuses_iff"
   ],
   "note": ""
  },
  {
   "property": "C23",
   "status": "partial",
   "theorems": [
    "Verif.Props.C23_indentation_monotone_partial",
    "Verif.Props.C23_no_leak_without_align_partial",
    "Verif.Props.C23_no_leak_without_blocks_partial",
    "Verif.Props.C23_leak_counterexample",
    "Verif.Props.C23_leak_rejects_counterexample"
   ],
   "note": "Refuted as stated: counterexample theorem, and a partial theorem for syntaxes without .l+ or without align_first."
  },
  {
   "property": "C24",
   "status": "proved",
   "theorems": [
    "Verif.Props.C24_update_refs",
    "Verif.Props.C24_update_refs_idempotent",
    "Verif.Props.C24_update_refs_rules",
    "Verif.Props.C24_unresolved_is_error",
    "Verif.Props.C24_resolved_is_rule"
   ],
   "note": ""
  },
  {
   "property": "C25",
   "status": "proved",
   "theorems": [
    "Verif.Props.C25_returns",
    "Verif.Props.C25_rule_returns",
    "Verif.Props.C25_check_sound",
    "Verif.Props.C25_repeat_of_empty_runs_for_ever",
    "Verif.Props.C25_repeat_of_total_runs_for_ever",
    "Verif.Props.C25_repeat_whitespace_runs_for_ever",
    "Verif.Props.C25_list_of_empty_runs_for_ever",
    "Verif.Props.C25_left_recursion_runs_for_ever"
   ],
   "note": ""
  },
  {
   "property": "C26",
   "status": "proved",
   "theorems": [
    "Verif.Props.C26_no_panic",
    "Verif.Props.C26_rule_no_panic",
    "Verif.Props.C26_check_sound"
   ],
   "note": ""
  },
  {
   "property": "C27",
   "status": "partial",
   "theorems": [
    "Verif.Props.C27_accepts_the_same_partial",
    "Verif.Props.C27_rejects_the_same_partial",
    "Verif.Props.C27_runs_for_ever_the_same_partial",
    "Verif.Props.C27_check_sound",
    "Verif.Props.C27_end_of_text_refuted"
   ],
   "note": "False in general (C27_end_of_text_refuted). Proved when the alternatives left out of a table cannot match at the end of a text, for which C27_check_sound gives a computable check."
  },
  {
   "property": "C28",
   "status": "proved",
   "theorems": [
    "Verif.Props.C28_same_error_place"
   ],
   "note": "Under the condition that is part of the statement (TailsRefused)."
  },
  {
   "property": "C29",
   "status": "proved",
   "theorems": [
    "Verif.Props.C29_unique_byte_sound"
   ],
   "note": ""
  },
  {
   "property": "C30",
   "status": "proved",
   "theorems": [
    "Verif.Props.C30_table_exact",
    "Verif.Props.C30_bytes_distinct",
    "Verif.Props.C30_maximal"
   ],
   "note": ""
  },
  {
   "property": "C31",
   "status": "proved",
   "theorems": [
    "Verif.Props.C31_returns",
    "Verif.Props.C31_returns_well_formed",
    "Verif.Props.C31_deterministic",
    "Verif.Props.C31_result_ok",
    "Verif.Props.C31_unique_byte_runs_for_ever",
    "Verif.Props.C31_optimize_runs_for_ever"
   ],
   "note": ""
  },
  {
   "property": "C32",
   "status": "proved",
   "theorems": [
    "Verif.Props.C32_read_back",
    "Verif.Props.C32_injective",
    "Verif.Props.C32_strict_iff",
    "Verif.Props.C32_quotes",
    "Verif.Props.C32_control_character"
   ],
   "note": "Both a lenient and a strict (RFC 8259) reader; strict validity is characterised exactly."
  },
  {
   "property": "C33",
   "status": "proved",
   "theorems": [
    "Verif.Props.C33_json_object",
    "Verif.Props.C33_one_value",
    "Verif.Props.C33_injective",
    "Verif.Props.C33_nan_is_not_json"
   ],
   "note": "Number printing and reading are a parameter with a contract (finite numbers are printed as JSON numbers and read back); at most 2^32 - 1 items, because the indentation is a u32. C33_nan_is_not_json: the restriction to finite numbers is needed."
  },
  {
   "property": "C34",
   "status": "proved",
   "theorems": [
    "Verif.Props.C34_panics_iff",
    "Verif.Props.C34_panics_iff_any",
    "Verif.Props.C34_parsed_data",
    "Verif.Props.C34_underflow"
   ],
   "note": "Below 2^31 items, so that the u32 counters and indentation do not overflow. C34_underflow is the witness that balanced data can panic."
  },
  {
   "property": "C35",
   "status": "partial",
   "theorems": [
    "Verif.Props.C35_caret",
    "Verif.Props.C35_ascii_partial",
    "Verif.Props.C35_lines_before",
    "Verif.Props.C35_multibyte_refuted",
    "Verif.Props.C35_parse_error",
    "Verif.Props.C35_ends_intersect"
   ],
   "note": "False as stated (C35_multibyte_refuted): offsets are counted in characters, lines in bytes. Proved when the lines before the line of the error have single-byte characters only, whatever is in the line itself and after it; C54 shows that this condition is exact."
  },
  {
   "property": "C36",
   "status": "proved",
   "theorems": [
    "Verif.Props.C36_no_panic",
    "Verif.Props.C36_after_the_text"
   ],
   "note": "Ranges whose end is not a usize are not covered (the sum is taken in the crate range)."
  },
  {
   "property": "C37",
   "status": "proved",
   "theorems": [
    "Verif.Props.C37_one_outcome",
    "Verif.Props.C37_returns",
    "Verif.Props.C37_returns_on_parsed",
    "Verif.Props.C37_truncated_runs_for_ever",
    "Verif.Props.C37_stray_end_panics",
    "Verif.Props.C37_large_number_panics"
   ],
   "note": ""
  },
  {
   "property": "C38",
   "status": "proved",
   "theorems": [
    "Verif.Props.C38_ranges_do_not_matter",
    "Verif.Props.C38_reads_document",
    "Verif.Props.C38_every_syntax"
   ],
   "note": "C38_reads_document for every document of the documented shape whose strings are defined; C38_every_syntax: every list of rules without tables has such a document. Ids up to 2^64 - 2."
  },
  {
   "property": "C39",
   "status": "proved",
   "theorems": [
    "Verif.Props.C39_document_ids",
    "Verif.Props.C39_ids_of_node",
    "Verif.Props.C39_number_from_id",
    "Verif.Props.C39_number_of_node",
    "Verif.Props.C39_as_usize",
    "Verif.Props.C39_same_number"
   ],
   "note": "Exact ids for documents of the documented shape; for all well-nested data the ids of one rule differ and lie after 1000 times a number in the data."
  },
  {
   "property": "C40",
   "status": "proved",
   "theorems": [
    "Verif.Props.C40_first_definition",
    "Verif.Props.C40_undefined_dropped",
    "Verif.Props.C40_overflow"
   ],
   "note": "C40_first_definition proves the first sentence; C40_undefined_dropped gives the exact result, including how many items are ignored, when names are undefined, which is silent dropping as the second sentence says."
  },
  {
   "property": "C41",
   "status": "proved",
   "theorems": [
    "Verif.Props.C41_trailing_refuted"
   ],
   "note": "The documented meaning of the dot is refuted."
  },
  {
   "property": "C42",
   "status": "proved",
   "theorems": [
    "Verif.Props.C42_ignore_item",
    "Verif.Props.C42_item_unique",
    "Verif.Props.C42_ignore_no_item",
    "Verif.Props.C42_update_span",
    "Verif.Props.C42_update_in_step",
    "Verif.Props.C42_update_panics",
    "Verif.Props.C42_subtract_span",
    "Verif.Props.C42_source_in_order",
    "Verif.Props.C42_source_returns_on_parsed",
    "Verif.Props.C42_source_item",
    "Verif.Props.C42_ignore_panics",
    "Verif.Props.C42_ignore_span",
    "Verif.Props.C42_subtract_exact",
    "Verif.Props.C42_source_exact"
   ],
   "note": ""
  },
  {
   "property": "C43",
   "status": "proved",
   "theorems": [
    "Verif.Props.C43_for_string",
    "Verif.Props.C43_for_f64",
    "Verif.Props.C43_for_bool",
    "Verif.Props.C43_for_node",
    "Verif.Props.C43_for_end_node",
    "Verif.Props.C43_nan_not_found",
    "Verif.Props.C43_starts",
    "Verif.Props.C43_new",
    "Verif.Props.C43_zero_found"
   ],
   "note": ""
  },
  {
   "property": "C44",
   "status": "proved",
   "theorems": [
    "Verif.Props.C44_bool",
    "Verif.Props.C44_f64",
    "Verif.Props.C44_string",
    "Verif.Props.C44_node",
    "Verif.Props.C44_end_node",
    "Verif.Props.C44_one_reader",
    "Verif.Props.C44_reads_all",
    "Verif.Props.C44_reads_only"
   ],
   "note": ""
  },
  {
   "property": "C45",
   "status": "proved",
   "theorems": [
    "Verif.Props.C45_sound",
    "Verif.Props.C45_syntax_sound",
    "Verif.Props.C45_reflexive_iff",
    "Verif.Props.C45_syntax_reflexive_iff",
    "Verif.Props.C45_symmetric_transitive",
    "Verif.Props.C45_optimized_differs_from_itself"
   ],
   "note": "The first sentence is proved in the strong form that rules comparing equal are the same."
  },
  {
   "property": "C46",
   "status": "proved",
   "theorems": [
    "Verif.Props.C46_bootstrap_returns",
    "Verif.Props.C46_accepted_is_document",
    "Verif.Props.C46_one_outcome",
    "Verif.Props.C46_rejected",
    "Verif.Props.C46_overflow_large",
    "Verif.Props.C46_meaning",
    "Verif.Props.C46_returns",
    "Verif.Props.C46_panics_iff",
    "Verif.Props.C46_no_panic",
    "Verif.Props.C46_error",
    "Verif.Props.C46_result",
    "Verif.Props.C46_result_ok"
   ],
   "note": "Two exceptions are in the statement: left recursion met by the optimizer (example that runs for ever) and ids that do not fit into a usize (C46_panics_iff, with an example; overflow checks are on). C64 gives the exact conditions."
  },
  {
   "property": "C47",
   "status": "proved",
   "theorems": [
    "Verif.Props.C47_success_position_independent",
    "Verif.Props.C47_failure_position_independent"
   ],
   "note": ""
  },
  {
   "property": "C48",
   "status": "proved",
   "theorems": [
    "Verif.Props.C48_read_data_protocol"
   ],
   "note": ""
  },
  {
   "property": "C49",
   "status": "proved",
   "theorems": [
    "Verif.Props.C49_reads_notation",
    "Verif.Props.C49_unambiguous",
    "Verif.Props.C49_meaning",
    "Verif.Props.C49_rule_trees",
    "Verif.Props.C49_print_injective"
   ],
   "note": "Every text in the notation of Spec/Notation.lean is read as the document it stands for, for every lawful lexer in which no number begins with a slash. Printing covers the rule trees that have a notation (Printable); ids are not printed, and the result of syntax is the optimized tree. Documents whose ids do not fit into a usize are excluded; C64 shows that syntax panics on them."
  },
  {
   "property": "C50",
   "status": "proved",
   "theorems": [
    "Verif.Props.C50_meta_data_equal_iff",
    "Verif.Props.C50_meta_data_reflexive_iff"
   ],
   "note": ""
  },
  {
   "property": "C51",
   "status": "proved",
   "theorems": [
    "Verif.Props.C51_shape_of_data"
   ],
   "note": ""
  },
  {
   "property": "C52",
   "status": "proved",
   "theorems": [
    "Verif.Props.C52_errstr_otherwise",
    "Verif.Props.C52_errstr",
    "Verif.Props.C52_errstr_returns",
    "Verif.Props.C52_load"
   ],
   "note": ""
  },
  {
   "property": "C53",
   "status": "proved",
   "theorems": [
    "Verif.Props.C53_exact",
    "Verif.Props.C53_accepted_iff",
    "Verif.Props.C53_rejects_others",
    "Verif.Props.C53_returns_iff"
   ],
   "note": "For every lexer that is lawful and exact (Lexer.Exact: strings end with a quote and do not depend on what follows; numbers do not begin with whitespace, underscore or slash; the next line begins after a new line). Both are proved for the concrete lexer."
  },
  {
   "property": "C54",
   "status": "proved",
   "theorems": [
    "Verif.Props.C54_shown",
    "Verif.Props.C54_one_place",
    "Verif.Props.C54_right_iff"
   ],
   "note": ""
  },
  {
   "property": "C55",
   "status": "proved",
   "theorems": [
    "Verif.Props.C55_guarded_unique",
    "Verif.Props.C55_accepts",
    "Verif.Props.C55_rejects",
    "Verif.Props.C55_error_place",
    "Verif.Props.C55_runs_for_ever",
    "Verif.Props.C55_guard_at_end",
    "Verif.Props.C55_guard_elsewhere"
   ],
   "note": "Unconditional, unlike C27. The difference is written into the original syntax as a guard (Spec.notAtEnd) whose meaning is stated by C55_guard_at_end and C55_guard_elsewhere. Running for ever is compared for syntaxes with indices in range and texts without overflowing widths."
  },
  {
   "property": "C56",
   "status": "proved",
   "theorems": [
    "Verif.Props.C56_every_failure",
    "Verif.Props.C56_returned",
    "Verif.Props.C56_expected_tag",
    "Verif.Props.C56_expected_end",
    "Verif.Props.C56_did_not_expect"
   ],
   "note": ""
  },
  {
   "property": "C57",
   "status": "proved",
   "theorems": [
    "Verif.Props.C57_items",
    "Verif.Props.C57_items_of_rule",
    "Verif.Props.C57_bool"
   ],
   "note": "Items left behind in the vector by a parse that fails are covered by C81_items."
  },
  {
   "property": "C58",
   "status": "proved",
   "theorems": [
    "Verif.Props.C58_block",
    "Verif.Props.C58_only_blocks",
    "Verif.Props.C58_no_blanks"
   ],
   "note": "The exact form of the leak that refutes C23."
  },
  {
   "property": "C59",
   "status": "proved",
   "theorems": [
    "Verif.Props.C59_de_morgan",
    "Verif.Props.C59_select_one",
    "Verif.Props.C59_sequence_one",
    "Verif.Props.C59_sequence_flat",
    "Verif.Props.C59_select_flat",
    "Verif.Props.C59_select_dead",
    "Verif.Props.C59_optional",
    "Verif.Props.C59_optional_twice",
    "Verif.Props.C59_repeat",
    "Verif.Props.C59_repeat_optional",
    "Verif.Props.C59_inline",
    "Verif.Props.C59_meaning",
    "Verif.Props.C59_order_refuted",
    "Verif.Props.C59_optional_list_refuted"
   ],
   "note": "Equality of runs includes the elementary failures in their order; two plausible laws are refuted."
  },
  {
   "property": "C60",
   "status": "proved",
   "theorems": [
    "Verif.Props.C60_accepts",
    "Verif.Props.C60_rejects",
    "Verif.Props.C60_runs_for_ever"
   ],
   "note": "Running for ever is compared for syntaxes with indices in range and texts without overflowing widths."
  },
  {
   "property": "C61",
   "status": "proved",
   "theorems": [
    "Verif.Props.C61_accepts",
    "Verif.Props.C61_rejects",
    "Verif.Props.C61_runs_for_ever",
    "Verif.Props.C61_optimizes",
    "Verif.Props.C61_map"
   ],
   "note": "Running for ever is compared for syntaxes with indices in range and texts without overflowing widths."
  },
  {
   "property": "C62",
   "status": "proved",
   "theorems": [
    "Verif.Props.C62_message_tells_error",
    "Verif.Props.C62_message_shows_id",
    "Verif.Props.C62_message_shows_tag",
    "Verif.Props.C62_report_shows_message"
   ],
   "note": "Given that the external crate read_token has different messages for different errors."
  },
  {
   "property": "C63",
   "status": "proved",
   "theorems": [
    "Verif.Props.C63_stands_for",
    "Verif.Props.C63_hard_coded",
    "Verif.Props.C63_fixpoint",
    "Verif.Props.C63_returns_only",
    "Verif.Props.C63_accepts",
    "Verif.Props.C63_rejects",
    "Verif.Props.C63_same_error",
    "Verif.Props.C63_bootstrapping"
   ],
   "note": "selfText was compared with the file character by character, outside Lean. Also uses that the lexer reads the numbers 0 to 22 (ReadsNumbers); shown for stdLexer."
  },
  {
   "property": "C64",
   "status": "proved",
   "theorems": [
    "Verif.Props.C64_unique_byte_panics",
    "Verif.Props.C64_unique_byte_returns",
    "Verif.Props.C64_optimize_returns",
    "Verif.Props.C64_optimize_runs",
    "Verif.Props.C64_meaning_runs",
    "Verif.Props.C64_runs_iff",
    "Verif.Props.C64_panics_iff",
    "Verif.Props.C64_error_iff"
   ],
   "note": "Panics are those of a build with overflow checks; without them ids wrap around. C64_optimize_returns needs no hypothesis on indices: with one out of range the optimizer panics if it comes to it (C64_unique_byte_panics)."
  },
  {
   "property": "C65",
   "status": "proved",
   "theorems": [
    "Verif.Props.C65_errstr",
    "Verif.Props.C65_default",
    "Verif.Props.C65_no_other_outcome",
    "Verif.Props.C65_report",
    "Verif.Props.C65_load",
    "Verif.Props.C65_load_otherwise"
   ],
   "note": "The place is shown under the condition of C35 (C54 shows that it is exact)."
  },
  {
   "property": "C66",
   "status": "proved",
   "theorems": [
    "Verif.Props.C66_bootstrap_iff",
    "Verif.Props.C66_bootstrap_old_iff",
    "Verif.Props.C66_bootstrap",
    "Verif.Props.C66_bootstrap_old_no_tables",
    "Verif.Props.C66_old_stands_for",
    "Verif.Props.C66_bootstrap_old_fails",
    "Verif.Props.C66_old_reads_itself",
    "Verif.Props.C66_bootstrap_old"
   ],
   "note": "That bootstrap_old.rs comes to its assertion is shown for stdLexer, the documented behaviour of the external crate; everything else for every lexer with the laws named."
  },
  {
   "property": "C67",
   "status": "proved",
   "theorems": [
    "Verif.Props.C67_example_iff",
    "Verif.Props.C67_neg_iff",
    "Verif.Props.C67_neg_match",
    "Verif.Props.C67_hello_rules",
    "Verif.Props.C67_hello_world"
   ],
   "note": ""
  },
  {
   "property": "C68",
   "status": "proved",
   "theorems": [
    "Verif.Props.C68_indent_rules",
    "Verif.Props.C68_indent"
   ],
   "note": "Indentation with spaces; with tabs the columns depend on tab_spaces (C22). ResumesLines is proved for stdLexer."
  },
  {
   "property": "C69",
   "status": "proved",
   "theorems": [
    "Verif.Props.C69_accepts",
    "Verif.Props.C69_rejects"
   ],
   "note": "Texts without tabs. SolidNumbers and ResumesLines are proved for stdLexer."
  },
  {
   "property": "C70",
   "status": "proved",
   "theorems": [
    "Verif.Props.C70_no_other_calls",
    "Verif.Props.C70_calls_made",
    "Verif.Props.C70_cost_defined",
    "Verif.Props.C70_cost_unique",
    "Verif.Props.C70_depth_bound",
    "Verif.Props.C70_fuel_bound",
    "Verif.Props.C70_bootstrap_depth",
    "Verif.Props.C70_bootstrap_deep"
   ],
   "note": "Levels are calls of Rule::parse; each is also a call of the parse function of the kind of rule. Bytes of stack per level are not modelled."
  },
  {
   "property": "C71",
   "status": "proved",
   "theorems": [
    "Verif.Props.C71_bootstrap_exponential",
    "Verif.Props.C71_short_file"
   ],
   "note": "Counted in calls of Rule::parse."
  },
  {
   "property": "C72",
   "status": "proved",
   "theorems": [
    "Verif.Props.C72_unique_byte",
    "Verif.Props.C72_optimized",
    "Verif.Props.C72_twice",
    "Verif.Props.C72_syntax",
    "Verif.Props.C72_no_table"
   ],
   "note": ""
  },
  {
   "property": "C73",
   "status": "proved",
   "theorems": [
    "Verif.Props.C73_trees",
    "Verif.Props.C73_tree_unique",
    "Verif.Props.C73_reads",
    "Verif.Props.C73_reads_only",
    "Verif.Props.C73_accepted",
    "Verif.Props.C73_strings_first",
    "Verif.Props.C73_unknown_ignored",
    "Verif.Props.C73_no_rule_with_more",
    "Verif.Props.C73_no_lines_with_more",
    "Verif.Props.C73_no_text_with_more",
    "Verif.Props.C73_unknown_in_node"
   ],
   "note": "Data that is not well nested is covered by C37; what is ignored of documents by C40."
  },
  {
   "property": "C74",
   "status": "proved",
   "theorems": [
    "Verif.Props.C74_json",
    "Verif.Props.C74_json_string",
    "Verif.Props.C74_report",
    "Verif.Props.C74_message",
    "Verif.Props.C74_prefix",
    "Verif.Props.C74_first_error",
    "Verif.Props.C74_capped",
    "Verif.Props.C74_vec",
    "Verif.Props.C74_unwrap",
    "Verif.Props.C74_stderr_unwrap"
   ],
   "note": "Text is counted in characters; a writer that fails inside of one is a writer that takes a shorter first part."
  },
  {
   "property": "C75",
   "status": "proved",
   "theorems": [
    "Verif.Props.C75_texts",
    "Verif.Props.C75_reported",
    "Verif.Props.C75_returns_iff",
    "Verif.Props.C75_no_rules",
    "Verif.Props.C75_wrong_rules",
    "Verif.Props.C75_no_data",
    "Verif.Props.C75_opened"
   ],
   "note": "Files do not change during the call."
  },
  {
   "property": "C76",
   "status": "proved",
   "theorems": [
    "Verif.Props.C76_stands_for",
    "Verif.Props.C76_rules",
    "Verif.Props.C76_returns",
    "Verif.Props.C76_exact",
    "Verif.Props.C76_still_accepted",
    "Verif.Props.C76_rejects",
    "Verif.Props.C76_old_loads",
    "Verif.Props.C76_old",
    "Verif.Props.C76_new_iff",
    "Verif.Props.C76_new",
    "Verif.Props.C76_agree",
    "Verif.Props.C76_comments",
    "Verif.Props.C76_unclosed",
    "Verif.Props.C76_not_pass",
    "Verif.Props.C76_not_stop"
   ],
   "note": "The unoptimized rules of use_new_self_syntax and the optimized ones of use_old_self_syntax differ as said in C27 and C55."
  },
  {
   "property": "C77",
   "status": "proved",
   "theorems": [
    "Verif.Props.C77_rules",
    "Verif.Props.C77_flat_json",
    "Verif.Props.C77_key_value",
    "Verif.Props.C77_reads_back",
    "Verif.Props.C77_no_fallback"
   ],
   "note": "The lexer laws used, Lawful, Exact, ReadsNumbers, SolidAll and ResumesAfterSpace, are proved for Model/StdLexer. The number of a value is the one the lexer reads; how it is printed is a parameter."
  },
  {
   "property": "C78",
   "status": "proved",
   "theorems": [
    "Verif.Props.C78_optimized_again",
    "Verif.Props.C78_greetings",
    "Verif.Props.C78_deep",
    "Verif.Props.C78_deep_cost",
    "Verif.Props.C78_no_fallback",
    "Verif.Props.C78_benches",
    "Verif.Props.C78_greeting_reports",
    "Verif.Props.C78_deep_reports"
   ],
   "note": "Timing is not modelled. That the recursion of bench_deep_string fits the stack is not claimed."
  },
  {
   "property": "C79",
   "status": "proved",
   "theorems": [
    "Verif.Props.C79_reports",
    "Verif.Props.C79_one_wrong",
    "Verif.Props.C79_types",
    "Verif.Props.C79_rules",
    "Verif.Props.C79_test"
   ],
   "note": "That the lexer reads 100 before space is a hypothesis, proved for Model/StdLexer."
  },
  {
   "property": "C80",
   "status": "proved",
   "theorems": [
    "Verif.Props.C80_same",
    "Verif.Props.C80_calls",
    "Verif.Props.C80_bounds",
    "Verif.Props.C80_linear",
    "Verif.Props.C80_exponential",
    "Verif.Props.C80_syntax_same",
    "Verif.Props.C80_rejected",
    "Verif.Props.C80_syntax_calls",
    "Verif.Props.C80_text"
   ],
   "note": "Counted in calls of optimize_rule; the calls of unique_byte are not counted. The calls for the hard-coded rules, made once, are not in the number for syntax."
  },
  {
   "property": "C81",
   "status": "proved",
   "theorems": [
    "Verif.Props.C81_items",
    "Verif.Props.C81_source_order",
    "Verif.Props.C81_nesting",
    "Verif.Props.C81_json",
    "Verif.Props.C81_kept",
    "Verif.Props.C81_open_node",
    "Verif.Props.C81_exact"
   ],
   "note": ""
  },
  {
   "property": "C82",
   "status": "proved",
   "theorems": [
    "Verif.Props.C82_panics",
    "Verif.Props.C82_runs_for_ever",
    "Verif.Props.C82_comes_back",
    "Verif.Props.C82_reads_nothing",
    "Verif.Props.C82_returns",
    "Verif.Props.C82_decided",
    "Verif.Props.C82_decided_plain"
   ],
   "note": "Tries uses Spec.Run for what has been tried before. Stack overflow and memory are not modelled: a parse that runs for ever by recursion ends in a stack overflow in practice."
  },
  {
   "property": "C83",
   "status": "proved",
   "theorems": [
    "Verif.Props.C83_read",
    "Verif.Props.C83_only",
    "Verif.Props.C83_exact",
    "Verif.Props.C83_says",
    "Verif.Props.C83_says_flat",
    "Verif.Props.C83_not_token",
    "Verif.Props.C83_no_trail",
    "Verif.Props.C83_table"
   ],
   "note": "Ids of the rules of a text are numbers of 64 bits, hence the bound on the parts of a rule. ReadsZero is proved for Model/StdLexer. The texts are written without short forms. Syntaxes with lists that forbid a separator at the end and with indented lines are not covered, nor are syntaxes with tables, which the optimizer makes."
  },
  {
   "property": "C84",
   "status": "proved",
   "theorems": [
    "Verif.Props.C84_accepts",
    "Verif.Props.C84_rejects",
    "Verif.Props.C84_runs_for_ever",
    "Verif.Props.C84_list",
    "Verif.Props.C84_list_empty",
    "Verif.Props.C84_not_not_not",
    "Verif.Props.C84_again",
    "Verif.Props.C84_factor",
    "Verif.Props.C84_again_refuted",
    "Verif.Props.C84_error_refuted"
   ],
   "note": ""
  },
  {
   "property": "C85",
   "status": "proved",
   "theorems": [
    "Verif.Props.C85_same",
    "Verif.Props.C85_names",
    "Verif.Props.C85_order",
    "Verif.Props.C85_unused",
    "Verif.Props.C85_duplicate",
    "Verif.Props.C85_rename",
    "Verif.Props.C85_texts",
    "Verif.Props.C85_order_refuted",
    "Verif.Props.C85_unused_refuted"
   ],
   "note": "Equality of the evaluator at every cut off, so panics, leftovers and errors are covered; the optimizer may return for one of two interchangeable syntaxes only (C85_unused_refuted)."
  },
  {
   "property": "C86",
   "status": "proved",
   "theorems": [
    "Verif.Props.C86_same",
    "Verif.Props.C86_final",
    "Verif.Props.C86_optimized",
    "Verif.Props.C86_numbers",
    "Verif.Props.C86_numbers_refuted",
    "Verif.Props.C86_token_refuted",
    "Verif.Props.C86_text_refuted",
    "Verif.Props.C86_lines_refuted",
    "Verif.Props.C86_not_refuted"
   ],
   "note": "NearNumbers is proved for Model/StdLexer with m = 3. What is left in the vector after the error is not part of the statement."
  },
  {
   "property": "C87",
   "status": "proved",
   "theorems": [
    "Verif.Props.C87_exponential",
    "Verif.Props.C87_bootstrap",
    "Verif.Props.C87_wellFormed",
    "Verif.Props.C87_polynomial",
    "Verif.Props.C87_backward",
    "Verif.Props.C87_quadratic",
    "Verif.Props.C87_linear_refuted"
   ],
   "note": "Counts calls of Rule::parse, not the time inside read_token. The constants are far from sharp."
  },
  {
   "property": "C88",
   "status": "proved",
   "theorems": [
    "Verif.Props.C88_no_slower",
    "Verif.Props.C88_bootstrap",
    "Verif.Props.C88_depth_sharp",
    "Verif.Props.C88_tails_needed"
   ],
   "note": "Counts calls of Rule::parse; the look-up in a table is not counted. The condition on tails is needed (C88_tails_needed)."
  },
  {
   "property": "C89",
   "status": "proved",
   "theorems": [
    "Verif.Props.C89_bound",
    "Verif.Props.C89_closed",
    "Verif.Props.C89_no_comment",
    "Verif.Props.C89_optimized",
    "Verif.Props.C89_lower",
    "Verif.Props.C89_optimized_lower",
    "Verif.Props.C89_openings"
   ],
   "note": "Upper bound for all texts (C89_bound, C89_optimized), linear if every comment is closed (C89_closed, C89_no_comment); lower bounds C89_lower, C89_optimized_lower, C89_openings show that the factor is needed. The constant 2030 is not the best one."
  },
  {
   "property": "C90",
   "status": "proved",
   "theorems": [
    "Verif.Props.C90_accepted_exponential",
    "Verif.Props.C90_syntax"
   ],
   "note": "C90_accepted_exponential for the hard-coded rules as they are and optimized; C90_syntax: what syntax returns."
  },
  {
   "property": "C91",
   "status": "proved",
   "theorems": [
    "Verif.Props.C91_rule",
    "Verif.Props.C91_accepted",
    "Verif.Props.C91_rejected",
    "Verif.Props.C91_indent",
    "Verif.Props.C91_optimized",
    "Verif.Props.C91_grammar",
    "Verif.Props.C91_grammar_rejected",
    "Verif.Props.C91_abc"
   ],
   "note": "Strings and numbers are tokens of the expressions, since the lexer is external. Data is not part of the statement. Lines are not covered (they depend on indentation); tables are covered by C91_optimized for those that the optimizer makes. C91_abc gives the syntax for as many a as b as c; that no context free grammar does so is well known and not proved here."
  },
  {
   "property": "C92",
   "status": "proved",
   "theorems": [
    "Verif.Props.C92_others",
    "Verif.Props.C92_common",
    "Verif.Props.C92_either",
    "Verif.Props.C92_combinable",
    "Verif.Props.C92_runs_for_ever"
   ],
   "note": "Accepting and rejecting; the data recorded is not part of the statement."
  },
  {
   "property": "C93",
   "status": "proved",
   "theorems": [
    "Verif.Props.C93_same",
    "Verif.Props.C93_unique_byte",
    "Verif.Props.C93_unique_byte_bound",
    "Verif.Props.C93_calls",
    "Verif.Props.C93_bound",
    "Verif.Props.C93_square",
    "Verif.Props.C93_table",
    "Verif.Props.C93_selects"
   ],
   "note": ""
  },
  {
   "property": "C94",
   "status": "proved",
   "theorems": [
    "Verif.Props.C94_rule",
    "Verif.Props.C94_linear",
    "Verif.Props.C94_laughs_ok",
    "Verif.Props.C94_laughs",
    "Verif.Props.C94_said"
   ],
   "note": ""
  },
  {
   "property": "C95",
   "status": "proved",
   "theorems": [
    "Verif.Props.C95_layout",
    "Verif.Props.C95_parsed",
    "Verif.Props.C95_length",
    "Verif.Props.C95_indentation",
    "Verif.Props.C95_bound",
    "Verif.Props.C95_quadratic"
   ],
   "note": ""
  },
  {
   "property": "C96",
   "status": "proved",
   "theorems": [
    "Verif.Props.C96_counts",
    "Verif.Props.C96_defined",
    "Verif.Props.C96_bound",
    "Verif.Props.C96_depth",
    "Verif.Props.C96_linear",
    "Verif.Props.C96_quadratic",
    "Verif.Props.C96_parsed",
    "Verif.Props.C96_worst",
    "Verif.Props.C96_one_number"
   ],
   "note": "C96_counts: the counted copy of convert returns what convert returns, for all data. The bounds are C96_bound, C96_linear, C96_quadratic, C96_parsed; the lower bound is C96_worst. Steps inside a method (comparing two names, pushing to a vector) are not counted. C96_one_number: the number is determined by the data."
  },
  {
   "property": "C97",
   "status": "proved",
   "theorems": [
    "Verif.Props.C97_bound",
    "Verif.Props.C97_sharp",
    "Verif.Props.C97_convert",
    "Verif.Props.C97_convert_linear"
   ],
   "note": "C97_bound with C97_sharp; C97_convert and C97_convert_linear combine it with C96. Needs the assumptions Lexer.Exact, as C53 does."
  },
  {
   "property": "C98",
   "status": "proved",
   "theorems": [
    "Verif.Props.C98_reading",
    "Verif.Props.C98_layout",
    "Verif.Props.C98_comments",
    "Verif.Props.C98_strings",
    "Verif.Props.C98_order",
    "Verif.Props.C98_inline",
    "Verif.Props.C98_numbers",
    "Verif.Props.C98_numbers_parse",
    "Verif.Props.C98_empty_tag",
    "Verif.Props.C98_self"
   ],
   "note": "C98_layout, C98_comments, C98_strings, C98_inline, C98_self, C98_numbers, C98_numbers_parse; C98_empty_tag is for Model/StdLexer. Needs Lexer.Exact. C98_inline needs numbers that can be written before any whitespace. That the order of strings etc. does not matter is the case doc.inline = doc'.inline of C98_strings."
  },
  {
   "property": "C99",
   "status": "proved",
   "theorems": [
    "Verif.Props.C99_same",
    "Verif.Props.C99_larger",
    "Verif.Props.C99_data",
    "Verif.Props.C99_rules",
    "Verif.Props.C99_doc",
    "Verif.Props.C99_defined",
    "Verif.Props.C99_exact",
    "Verif.Props.C99_file",
    "Verif.Props.C99_sharp"
   ],
   "note": "C99_same, C99_larger: what the bounded convert returns is what convert returns. Upper bounds C99_data, C99_doc, C99_file; lower bounds C99_rules, C99_defined; both C99_exact, C99_sharp. Only calls of read_rule are counted; between two of them is one call of read_sequence, read_optional etc. Bytes of stack are not modelled."
  },
  {
   "property": "C100",
   "status": "proved",
   "theorems": [
    "Verif.Props.C100_same",
    "Verif.Props.C100_calls",
    "Verif.Props.C100_names",
    "Verif.Props.C100_bound",
    "Verif.Props.C100_again",
    "Verif.Props.C100_erase",
    "Verif.Props.C100_convert",
    "Verif.Props.C100_file",
    "Verif.Props.C100_worst",
    "Verif.Props.C100_one_number"
   ],
   "note": "Counts: C100_same, C100_calls, C100_names, C100_bound, C100_again. Inside convert: C100_erase, C100_convert. For texts: upper bounds C100_file, lower bound C100_worst. A comparison of two names counts as one, whatever their length. C100_one_number: determined by the data."
  },
  {
   "property": "C101",
   "status": "proved",
   "theorems": [
    "Verif.Props.C101_same",
    "Verif.Props.C101_parts",
    "Verif.Props.C101_bounds",
    "Verif.Props.C101_total",
    "Verif.Props.C101_quadratic",
    "Verif.Props.C101_boxes",
    "Verif.Props.C101_one_work"
   ],
   "note": "The numbers are those of C89, C96, C97, C100, C80 and C93 (C101_parts); bounds C101_bounds, C101_total, C101_quadratic; C101_boxes for the exponent. BOOTSTRAP_RULES, computed once, are not counted. Comparisons of text and copying of rules and strings are not counted. C101_one_work: determined by the text."
  },
  {
   "property": "C102",
   "status": "proved",
   "theorems": [
    "Verif.Props.C102_update",
    "Verif.Props.C102_optimize",
    "Verif.Props.C102_optimize_bounds",
    "Verif.Props.C102_parse",
    "Verif.Props.C102_parts",
    "Verif.Props.C102_same",
    "Verif.Props.C102_larger",
    "Verif.Props.C102_steps",
    "Verif.Props.C102_enough",
    "Verif.Props.C102_needed"
   ],
   "note": "C102_same, C102_larger, C102_parts for syntax as a whole; exact depths C102_update, C102_optimize; bounds C102_optimize_bounds, C102_parse, C102_steps, C102_enough; lower bound C102_needed. The depth of BOOTSTRAP_RULES being optimized is not bounded by d: it is done once and does not depend on the text. Calls are counted for each function on its own, except unique_byte inside optimize_rule. The number 362 is not claimed to be the smallest."
  },
  {
   "property": "C103",
   "status": "proved",
   "theorems": [
    "Verif.Props.C103_exists",
    "Verif.Props.C103_recorded",
    "Verif.Props.C103_unique",
    "Verif.Props.C103_prefix",
    "Verif.Props.C103_one_by_one",
    "Verif.Props.C103_call",
    "Verif.Props.C103_last",
    "Verif.Props.C103_count",
    "Verif.Props.C103_peak",
    "Verif.Props.C103_in_vain"
   ],
   "note": "C103_exists, C103_recorded, C103_unique, C103_prefix, C103_last, C103_one_by_one (C103_call for any call of any rule), C103_count, C103_peak, and C103_in_vain for the example. The length of the vector is counted in items, not in bytes, and not the capacity that Vec allocates. The factor is not claimed to be the smallest; that it may be exponential in the rules is C94_laughs. A parse that panics is not covered."
  },
  {
   "property": "C104",
   "status": "proved",
   "theorems": [
    "Verif.Props.C104_histories",
    "Verif.Props.C104_returns",
    "Verif.Props.C104_otherwise",
    "Verif.Props.C104_loops",
    "Verif.Props.C104_words",
    "Verif.Props.C104_undecidable",
    "Verif.Props.C104_loops_undecidable"
   ],
   "note": "C104_histories, C104_returns, C104_otherwise, C104_loops for given rewriting systems; C104_words: the start word is computed from n; C104_undecidable, C104_loops_undecidable with Mathlib's ComputablePred. The syntaxes are values of Syntax; their number of rules is eight, the number of alternatives is that of the machine, which is not made explicit."
  },
  {
   "property": "C105",
   "status": "proved",
   "theorems": [
    "Verif.Props.C105_computed",
    "Verif.Props.C105_family",
    "Verif.Props.C105_accepts_undecidable",
    "Verif.Props.C105_same_undecidable",
    "Verif.Props.C105_loops_undecidable"
   ],
   "note": "From C104 through the text of the file, `syntax` and the optimizer. A file is given by the numbers of its characters. The lexer is any that meets the contract (C39) and reads the digit 0 as the number zero; the crate's lexer does."
  },
  {
   "property": "C106",
   "status": "proved",
   "theorems": [
    "Verif.Props.C106_exists",
    "Verif.Props.C106_unique",
    "Verif.Props.C106_length",
    "Verif.Props.C106_places",
    "Verif.Props.C106_end",
    "Verif.Props.C106_few",
    "Verif.Props.C106_same",
    "Verif.Props.C106_indent",
    "Verif.Props.C106_answer",
    "Verif.Props.C106_again",
    "Verif.Props.C106_bootstrap"
   ],
   "note": "C106_exists, C106_unique, C106_length, C106_places, C106_end: the list of calls; C106_few, C106_same, C106_indent, C106_answer, C106_again; C106_bootstrap. What a call leaves in the vector behind the data it has added is not part of the answer (C81). That a table would help is a remark, not a claim: no parser with a table is modelled."
  },
  {
   "property": "C107",
   "status": "proved",
   "theorems": [
    "Verif.Props.C107_cost",
    "Verif.Props.C107_degree",
    "Verif.Props.C107_no_degree"
   ],
   "note": "C107_cost (exact), C107_degree, C107_no_degree. Repeats inside of repeats, with an alternative that fails at the end. The syntaxes are values of Syntax and have not been optimized."
  },
  {
   "property": "C108",
   "status": "proved",
   "theorems": [
    "Verif.Props.C108_rule",
    "Verif.Props.C108_no_table",
    "Verif.Props.C108_equal",
    "Verif.Props.C108_syntax",
    "Verif.Props.C108_syntax_no_table",
    "Verif.Props.C108_table",
    "Verif.Props.C108_blind",
    "Verif.Props.C108_meta_data",
    "Verif.Props.C108_search",
    "Verif.Props.C108_one_line"
   ],
   "note": "C108_rule, C108_syntax (exact), C108_no_table, C108_syntax_no_table, C108_equal, C108_table, C108_blind, C108_meta_data, C108_search, C108_one_line. derive(Debug) and the escapes of strings are modelled after the standard library; which characters are written as \\u{..} and how an f64 is written are parameters. Alternate formatting (`{:#?}`) is not modelled."
  },
  {
   "property": "C109",
   "status": "proved",
   "theorems": [
    "Verif.Props.C109_accepts",
    "Verif.Props.C109_rejects",
    "Verif.Props.C109_runs_for_ever",
    "Verif.Props.C109_optimizes",
    "Verif.Props.C109_data",
    "Verif.Props.C109_none",
    "Verif.Props.C109_keep"
   ],
   "note": "C109_accepts, C109_rejects, C109_runs_for_ever, C109_optimizes for any change of properties; C109_data for a function, with C109_none and C109_keep. What a rejected text leaves in the vector does depend on properties (C81)."
  },
  {
   "property": "C110",
   "status": "proved",
   "theorems": [
    "Verif.Props.C110_wellFormed",
    "Verif.Props.C110_returns",
    "Verif.Props.C110_linear",
    "Verif.Props.C110_linear_any",
    "Verif.Props.C110_optimized",
    "Verif.Props.C110_nested",
    "Verif.Props.C110_quadratic",
    "Verif.Props.C110_bootstrap"
   ],
   "note": "C110_wellFormed, C110_returns, C110_linear (with constants), C110_linear_any, C110_optimized, C110_nested (a recursive syntax, all texts), C110_quadratic and C110_bootstrap (no marks are confirmed). Marks are given; C112 computes them. Lines with indentation and look-up tables are excluded; .not is allowed only over rules that call no others."
  },
  {
   "property": "C111",
   "status": "proved",
   "theorems": [
    "Verif.Props.C111_accepted",
    "Verif.Props.C111_generated",
    "Verif.Props.C111_parses",
    "Verif.Props.C111_rejects",
    "Verif.Props.C111_one_reading",
    "Verif.Props.C111_order_generated",
    "Verif.Props.C111_order",
    "Verif.Props.C111_nested",
    "Verif.Props.C111_rejected_generated",
    "Verif.Props.C111_order_matters"
   ],
   "note": "C111_accepted (any syntax without lines, tables and .not over rules that call others), C111_generated, C111_parses, C111_rejects, C111_one_reading, C111_order_generated, C111_order, C111_nested (a recursive syntax meets the conditions), C111_rejected_generated and C111_order_matters (the conditions are needed). Errors are not compared: their message depends on the order."
  },
  {
   "property": "C112",
   "status": "proved",
   "theorems": [
    "Verif.Props.C112_sound",
    "Verif.Props.C112_linear",
    "Verif.Props.C112_found",
    "Verif.Props.C112_exact",
    "Verif.Props.C112_refuted",
    "Verif.Props.C112_grammar",
    "Verif.Props.C112_grammar_exact",
    "Verif.Props.C112_numbers",
    "Verif.Props.C112_nested",
    "Verif.Props.C112_calc",
    "Verif.Props.C112_hello",
    "Verif.Props.C112_keyValue",
    "Verif.Props.C112_greedy"
   ],
   "note": "C112_sound, C112_linear, C112_found (with a bound on the steps), C112_exact, C112_refuted, C112_grammar, C112_grammar_exact; C112_numbers for Model/StdLexer; C112_nested, C112_calc, C112_hello, C112_keyValue, C112_greedy. That some character is left unmentioned is a hypothesis, checked by evaluation in each case. Left recursive rules have no marks, but the steps do not come to rest for them: the count of calls without reading grows for ever."
  },
  {
   "property": "C113",
   "status": "proved",
   "theorems": [
    "Verif.Props.C113_reads",
    "Verif.Props.C113_sound",
    "Verif.Props.C113_accepts",
    "Verif.Props.C113_rejects",
    "Verif.Props.C113_unique",
    "Verif.Props.C113_spaces",
    "Verif.Props.C113_tab_siblings",
    "Verif.Props.C113_tab_row"
   ],
   "note": "C113_reads, C113_sound (all texts), C113_accepts, C113_rejects (where every number ends its line), C113_unique, C113_spaces (C69 is the case without tabs), C113_tab_siblings, C113_tab_row. Where numbers stand beside each other C113_reads and C113_sound leave a gap: a line that reaches far enough for the tree before it may be read further out when what follows on the line cannot be read otherwise (example in Props/Tabs)."
  },
  {
   "property": "C114",
   "status": "proved",
   "theorems": [
    "Verif.Props.C114_unique",
    "Verif.Props.C114_call",
    "Verif.Props.C114_costs",
    "Verif.Props.C114_vector"
   ],
   "note": "C114_unique (exactly one count and depth), C114_call (every call, any vector and token state), C114_costs (the cost of a parse), C114_vector. For rules that return; calls that panic or do not return have no counts."
  },
  {
   "property": "C115",
   "status": "proved",
   "theorems": [
    "Verif.Props.C115_exponential",
    "Verif.Props.C115_program",
    "Verif.Props.C115_length",
    "Verif.Props.C115_forty"
   ],
   "note": "C115_exponential (exact count, any lexer meeting the assumptions), C115_program (for the rules read from the program's text), C115_length, C115_forty (a concrete length). The bound on n is the range of u32 columns."
  },
  {
   "property": "C116",
   "status": "proved",
   "theorems": [
    "Verif.Props.C116_tree",
    "Verif.Props.C116_linear"
   ],
   "note": "C116_tree (all trees laid out without conflict, with tabs or not), C116_linear (all accepted texts without tabs or with one number on each line). Rejected texts are not counted."
  },
  {
   "property": "C117",
   "status": "proved",
   "theorems": [
    "Verif.Props.C117_shape",
    "Verif.Props.C117_place",
    "Verif.Props.C117_costs",
    "Verif.Props.C117_no_data",
    "Verif.Props.C117_ids"
   ],
   "note": "C117_shape and C117_place (each rule at each position), C117_costs (parse), C117_no_data, C117_ids. For rules that return."
  },
  {
   "property": "C118",
   "status": "proved",
   "theorems": [
    "Verif.Props.C118_failures",
    "Verif.Props.C118_viable",
    "Verif.Props.C118_incomplete",
    "Verif.Props.C118_continues",
    "Verif.Props.C118_nested",
    "Verif.Props.C118_needed",
    "Verif.Props.C118_numbers",
    "Verif.Props.C118_calc"
   ],
   "note": "C118_failures (every failure), C118_viable (the error reported), C118_incomplete (errors at the end), C118_continues and C118_nested (texts, lists and tables), C118_numbers and C118_calc (sums and products, concrete lexer), C118_needed (a syntax that breaks the last condition only). Errors inside quoted strings are excluded, since the assumptions on the lexer do not say how far a bad string can be repaired."
  },
  {
   "property": "C119",
   "status": "proved",
   "theorems": [
    "Verif.Props.C119_hopeless",
    "Verif.Props.C119_boundary",
    "Verif.Props.C119_calc",
    "Verif.Props.C119_late"
   ],
   "note": "C118 combined with C86; concrete case: sums and products with numbers, and the text 1e+; for which the bound is reached."
  },
  {
   "property": "C120",
   "status": "proved",
   "theorems": [
    "Verif.Props.C120_sound",
    "Verif.Props.C120_viable",
    "Verif.Props.C120_exact",
    "Verif.Props.C120_numbers",
    "Verif.Props.C120_calc",
    "Verif.Props.C120_hello",
    "Verif.Props.C120_lost"
   ],
   "note": "Sound and complete relative to the list of characters before which numbers do not end; concrete cases: sums, examples/hello_world.rs, and a syntax that is refused."
  },
  {
   "property": "C121",
   "status": "proved",
   "theorems": [
    "Verif.Props.C121_failures",
    "Verif.Props.C121_expected",
    "Verif.Props.C121_tag",
    "Verif.Props.C121_whitespace",
    "Verif.Props.C121_end",
    "Verif.Props.C121_checked",
    "Verif.Props.C121_calc",
    "Verif.Props.C121_needed"
   ],
   "note": "C121_failures (every failure), C121_expected (the error reported), C121_tag, C121_whitespace, C121_end, C121_checked (with the check of C120), C121_calc (sums), C121_needed. Errors inside quoted strings are excluded as in C118."
  },
  {
   "property": "C122",
   "status": "proved",
   "theorems": [
    "Verif.Props.C122_automaton",
    "Verif.Props.C122_regular",
    "Verif.Props.C122_file",
    "Verif.Props.C122_more"
   ],
   "note": "C122_automaton (automata with numbered states, with the bound on calls), C122_regular (regular languages of Mathlib), C122_file (as a file of rules), C122_more (a syntax whose texts are not regular)."
  },
  {
   "property": "C123",
   "status": "proved",
   "theorems": [
    "Verif.Props.C123_read_back",
    "Verif.Props.C123_recovered",
    "Verif.Props.C123_linear",
    "Verif.Props.C123_file",
    "Verif.Props.C123_any_file",
    "Verif.Props.C123_parsed",
    "Verif.Props.C123_rejects"
   ],
   "note": "C123_read_back, C123_recovered (nothing is lost), C123_parsed (data that a parser returned), C123_linear, C123_file and C123_any_file (as a file of rules), C123_rejects (a missing comma). The number format is a parameter; digits are shown to read back with the concrete lexer."
  },
  {
   "property": "C124",
   "status": "proved",
   "theorems": [
    "Verif.Props.C124_generated",
    "Verif.Props.C124_contextFree",
    "Verif.Props.C124_brackets",
    "Verif.Props.C124_triples",
    "Verif.Props.C124_beyond"
   ],
   "note": "only tags are read, so that the characters of a production are terminals; the grammar is that of Mathlib. Whether every context-free language is accepted by some syntax is not known and not claimed."
  },
  {
   "property": "C125",
   "status": "proved",
   "theorems": [
    "Verif.Props.C125_dead",
    "Verif.Props.C125_rejects",
    "Verif.Props.C125_exact",
    "Verif.Props.C125_any",
    "Verif.Props.C125_hopeless",
    "Verif.Props.C125_not_all"
   ],
   "note": "C125_dead and C125_rejects for all syntaxes; C125_exact (rules at any depth) and C125_any (texts) under the checks; C125_not_all shows that the checks are needed."
  },
  {
   "property": "C126",
   "status": "proved",
   "theorems": [
    "Verif.Props.C126_composes",
    "Verif.Props.C126_alone",
    "Verif.Props.C126_edit",
    "Verif.Props.C126_checked",
    "Verif.Props.C126_sums",
    "Verif.Props.C126_needed"
   ],
   "note": "C126_composes (texts put together), C126_alone (what may stand for a rule is what it reads alone), C126_edit (exchange), C126_checked (computable conditions), C126_sums (a concrete syntax), C126_needed. Ranges of the items behind the edit move and are not compared. That only the node has to be parsed again is a reading of C126_edit; no incremental parser is modelled."
  },
  {
   "property": "C127",
   "status": "proved",
   "theorems": [
    "Verif.Props.C127_tight",
    "Verif.Props.C127_sound",
    "Verif.Props.C127_rules",
    "Verif.Props.C127_calc",
    "Verif.Props.C127_needed"
   ],
   "note": "C127_tight: for every accepted text there is one no longer, accepted with the same data, put together by the tight rules. C127_sound: what the tight rules put together is accepted. C127_rules: the tight rules accept only accepted texts, and all data. C127_calc: sums. C127_needed: it is not enough that the next character decides."
  },
  {
   "property": "C128",
   "status": "proved",
   "theorems": [
    "Verif.Props.C128_never",
    "Verif.Props.C128_exact",
    "Verif.Props.C128_named",
    "Verif.Props.C128_not_all"
   ],
   "note": "C128_never: for all syntaxes, a name that is not found occurs in no data. C128_exact: under the conditions of C125 the names found do occur. C128_named: an example with exactly three names. C128_not_all: in general some names found do not occur."
  },
  {
   "property": "C129",
   "status": "proved",
   "theorems": [
    "Verif.Props.C129_alone",
    "Verif.Props.C129_ranges",
    "Verif.Props.C129_computed",
    "Verif.Props.C129_sums"
   ],
   "note": "C129_alone: what a rule reads on its own it reads anywhere, with its ranges moved. C129_ranges: all items and ranges after an edit. C129_computed: the new ranges as a function of the old ones, if the old text was not empty. C129_sums: an example. Offsets and lengths are in characters, as in the model throughout."
  },
  {
   "property": "C130",
   "status": "proved",
   "theorems": [
    "Verif.Props.C130_data",
    "Verif.Props.C130_alone",
    "Verif.Props.C130_checked",
    "Verif.Props.C130_named",
    "Verif.Props.C130_labels",
    "Verif.Props.C130_not_all"
   ],
   "note": "C130_data: the data of the accepted texts is exactly the data the rules allow. C130_alone: the same for each rule read alone. C130_checked: with the conditions computed. C130_named and C130_labels: two syntaxes with all their data written down. C130_not_all: without the conditions the rules may allow more. What numbers there are is left as `NumberValue`."
  },
  {
   "property": "C131",
   "status": "proved",
   "theorems": [
    "Verif.Props.C131_accepted",
    "Verif.Props.C131_rejected",
    "Verif.Props.C131_same",
    "Verif.Props.C131_same_rejected",
    "Verif.Props.C131_dead",
    "Verif.Props.C131_none_left",
    "Verif.Props.C131_again",
    "Verif.Props.C131_stuck",
    "Verif.Props.C131_left_behind"
   ],
   "note": "C131_accepted, C131_rejected: for all syntaxes without indented lines. C131_same, C131_same_rejected: equality for well-formed ones. C131_dead, C131_none_left, C131_again: what is left. C131_stuck and C131_left_behind: neither condition can be dropped. The error reported may be another."
  },
  {
   "property": "C132",
   "status": "proved",
   "theorems": [
    "Verif.Props.C132_values",
    "Verif.Props.C132_exact",
    "Verif.Props.C132_named"
   ],
   "note": "C132_values: exactly the doubles that are not NaN. C132_exact: exact decimal texts are read exactly. C132_named: all data of a syntax with numbers, with C130. About stdLexer, the model of the external number reader; that Rust reads numbers so is part of the trusted base."
  },
  {
   "property": "C133",
   "status": "proved",
   "theorems": [
    "Verif.Props.C133_nearest",
    "Verif.Props.C133_says",
    "Verif.Props.C133_read",
    "Verif.Props.C133_unique",
    "Verif.Props.C133_mono",
    "Verif.Props.C133_example"
   ],
   "note": "C133_says: what is taken for a number says one. C133_nearest: it is read as x exactly if x is nearest. C133_read: both together. C133_unique: there is exactly one nearest double. C133_mono: order is kept. About stdLexer, the model of the external number reader; that Rust reads numbers so is part of the trusted base."
  },
  {
   "property": "C134",
   "status": "proved",
   "theorems": [
    "Verif.Props.C134_text",
    "Verif.Props.C134_back",
    "Verif.Props.C134_only",
    "Verif.Props.C134_exact",
    "Verif.Props.C134_printer",
    "Verif.Props.C134_json",
    "Verif.Props.C134_injective",
    "Verif.Props.C134_infinite",
    "Verif.Props.C134_tenth"
   ],
   "note": "C134_text, C134_back, C134_only, C134_exact: when numbers are read back. C134_printer: the condition can be met for all finite doubles. C134_json, C134_injective: for well-nested data. C134_infinite: inf and NaN are not read. That the formatter of Rust prints such texts is its documentation, not proved."
  },
  {
   "property": "C135",
   "status": "proved",
   "theorems": [
    "Verif.Props.C135_written",
    "Verif.Props.C135_natural",
    "Verif.Props.C135_usize",
    "Verif.Props.C135_ids",
    "Verif.Props.C135_apart",
    "Verif.Props.C135_order",
    "Verif.Props.C135_shared"
   ],
   "note": "C135_written: any number before a rule. C135_natural, C135_usize, C135_ids, C135_apart: natural numbers up to 2^53. C135_order: order is kept. C135_shared: numbers beyond may be shared. About stdLexer."
  },
  {
   "property": "C136",
   "status": "proved",
   "theorems": [
    "Verif.Props.C136_longest",
    "Verif.Props.C136_none",
    "Verif.Props.C136_underscores",
    "Verif.Props.C136_rule"
   ],
   "note": "C136_longest, C136_none: what is read. C136_underscores: underscores do not matter. C136_rule: for a syntax of one number rule. About stdLexer, the model of the external number reader."
  },
  {
   "property": "C137",
   "status": "proved",
   "theorems": [
    "Verif.Props.C137_number",
    "Verif.Props.C137_left",
    "Verif.Props.C137_equal",
    "Verif.Props.C137_infinite",
    "Verif.Props.C137_json",
    "Verif.Props.C137_expected",
    "Verif.Props.C137_no_error"
   ],
   "note": "C137_number, C137_left: the items. C137_equal: no NaN. C137_infinite: when a number is infinite. C137_json: with C123 and C134. C137_expected, C137_no_error: errors. About stdLexer, the model of the external number reader; for C137_no_error see there."
  },
  {
   "property": "C138",
   "status": "proved",
   "theorems": [
    "Verif.Props.C138_taken",
    "Verif.Props.C138_value",
    "Verif.Props.C138_one",
    "Verif.Props.C138_every",
    "Verif.Props.C138_rule",
    "Verif.Props.C138_error"
   ],
   "note": "About the modelled lexer (Model/StdLexer), as C136; proved for all texts."
  },
  {
   "property": "C139",
   "status": "proved",
   "theorems": [
    "Verif.Props.C139_string",
    "Verif.Props.C139_left",
    "Verif.Props.C139_expected",
    "Verif.Props.C139_empty",
    "Verif.Props.C139_invalid"
   ],
   "note": "C139_string, C139_left: the items. C139_expected, C139_empty, C139_invalid: the errors. About stdLexer, the model of the external string reader."
  }
 ]
}