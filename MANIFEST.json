{
 "claims": [
  {
   "property": "C01",
   "status": "proved",
   "theorems": [
    "Verif.Props.C01_decode_encode",
    "Verif.Props.C01_encode_empty_iff",
    "Verif.Props.C01_prefix_free",
    "Verif.Props.C01_decode_text"
   ],
   "note": ""
  },
  {
   "property": "C02",
   "status": "proved",
   "theorems": [
    "Verif.Props.C02_length_le",
    "Verif.Props.C02_decode_length_le",
    "Verif.Props.C02_agree",
    "Verif.Props.C02_length_spec",
    "Verif.Props.C02_cp_bound"
   ],
   "note": ""
  },
  {
   "property": "C03",
   "status": "proved",
   "theorems": [
    "Verif.Props.C03_count_encoded",
    "Verif.Props.C03_count_bounds",
    "Verif.Props.C03_count_append"
   ],
   "note": ""
  },
  {
   "property": "C04",
   "status": "proved",
   "theorems": [
    "Verif.Props.C04_resolve_id",
    "Verif.Props.C04_roundtrip",
    "Verif.Props.C04_backslash_counterexample",
    "Verif.Props.C04_escape_table",
    "Verif.Props.C04_simple_defined"
   ],
   "note": ""
  },
  {
   "property": "C05",
   "status": "partial",
   "theorems": [
    "Verif.Props.C05_hex_digits",
    "Verif.Props.C05_octal_digits",
    "Verif.Props.C05_hex_partial",
    "Verif.Props.C05_octal_partial",
    "Verif.Props.C05_following_text_counterexample",
    "Verif.Props.C05_octal_counterexample",
    "Verif.Props.C05_overflow_ub"
   ],
   "note": "Holds when the text after the escape is not itself a digit of the same base; counterexamples proved."
  },
  {
   "property": "C06",
   "status": "proved",
   "theorems": [
    "Verif.Props.C06_complement",
    "Verif.Props.C06_complement_bounded",
    "Verif.Props.C06_predefined_sorted",
    "Verif.Props.C06_unsorted_counterexample"
   ],
   "note": ""
  },
  {
   "property": "C07",
   "status": "partial",
   "theorems": [
    "Verif.Props.C07_class_match",
    "Verif.Props.C07_class_bounds",
    "Verif.Props.C07_ignore_case_partial",
    "Verif.Props.C07_ignore_case_counterexample",
    "Verif.Props.C07_tolower_ub",
    "Verif.Props.C07_strict_agrees",
    "Verif.Props.C07_bitset_agrees",
    "Verif.Props.C07_bitset_counterexample",
    "Verif.Props.C07_malformed_counterexample"
   ],
   "note": "Case-insensitive ranges compare lower-cased endpoints; counterexample proved."
  },
  {
   "property": "C08",
   "status": "partial",
   "theorems": [
    "Verif.Props.C08_span_eq_loop_partial",
    "Verif.Props.C08_counterexample",
    "Verif.Props.C08_inverted_bounds_counterexample",
    "Verif.Props.C08_malformed_never_ends"
   ],
   "note": "Equality proved for non-inverted bounds and inputs on which no malformed UTF-8 stops the class with length 0; counterexamples proved for the rest."
  },
  {
   "property": "C09",
   "status": "proved",
   "theorems": [
    "Verif.Props.C09_match_iff",
    "Verif.Props.C09_longest"
   ],
   "note": ""
  },
  {
   "property": "C10",
   "status": "partial",
   "theorems": [
    "Verif.Props.C10_choice_index_partial",
    "Verif.Props.C10_choice_counterexample",
    "Verif.Props.C10_choice_prefix"
   ],
   "note": "Proved when no word is a prefix of another; false in general, counterexample proved."
  },
  {
   "property": "C11",
   "status": "proved",
   "theorems": [
    "Verif.Props.C11_line_info"
   ],
   "note": ""
  },
  {
   "property": "C12",
   "status": "proved",
   "theorems": [
    "Verif.Props.C12_hint_irrelevant",
    "Verif.Props.C12_history",
    "Verif.Props.C12_agrees_ascii",
    "Verif.Props.C12_disagree_non_ascii"
   ],
   "note": ""
  },
  {
   "property": "C13",
   "status": "partial",
   "theorems": [
    "Verif.Props.C13_position",
    "Verif.Props.C13_reported",
    "Verif.Props.C13_expected_partial",
    "Verif.Props.C13_expected_all_partial",
    "Verif.Props.C13_terminal_recorded",
    "Verif.Props.C13_names",
    "Verif.Props.C13_earlier_kept",
    "Verif.Props.C13_earlier_ignored",
    "Verif.Props.C13_expectations_dropped"
   ],
   "note": "Position: proved for every parse without recovery. Expected tokens: exactly those recorded at the furthest position and not dropped by a later failure there; that all of them are shown is false, counterexample proved."
  },
  {
   "property": "C14",
   "status": "proved",
   "theorems": [
    "Verif.Props.C14_memo_is_map",
    "Verif.Props.C14_table_find"
   ],
   "note": ""
  },
  {
   "property": "C15",
   "status": "partial",
   "theorems": [
    "Verif.Props.C15_packrat_not_transparent_for_texts",
    "Verif.Props.C15_packrat_transparent_partial",
    "Verif.Props.C15_packrat_not_transparent",
    "Verif.Props.C15_packrat_for_texts_partial",
    "Verif.Props.C15_packrat_well_formed_text_partial"
   ],
   "note": "Proved for certified grammars (memoised rules are called in one mode, leave no cut and no captures; no precedence, recovery, user parsers); false in general, counterexamples proved. C34_packrat_loses_operator_witness is a further counterexample (precedence climbing). C15_packrat_for_texts_partial: the same from the bytes of a grammar text, for loaded parsers and any history of parses. C15_packrat_not_transparent_for_texts: three texts, with the packrat filter the library has, for which packrat parsing changes the answer (one shows that the switch of C61 is not enough)."
  },
  {
   "property": "C16",
   "status": "proved",
   "theorems": [
    "Verif.Props.C16_match_in_bounds",
    "Verif.Props.C16_parse_in_bounds"
   ],
   "note": ""
  },
  {
   "property": "C17",
   "status": "proved",
   "theorems": [
    "Verif.Props.C17_deterministic",
    "Verif.Props.C17_parse_deterministic",
    "Verif.Props.C17_more_stack_same_answer"
   ],
   "note": ""
  },
  {
   "property": "C18",
   "status": "proved",
   "theorems": [
    "Verif.Props.C18_and",
    "Verif.Props.C18_not"
   ],
   "note": ""
  },
  {
   "property": "C19",
   "status": "proved",
   "theorems": [
    "Verif.Props.C19_choice_success",
    "Verif.Props.C19_choice_failure"
   ],
   "note": ""
  },
  {
   "property": "C20",
   "status": "proved",
   "theorems": [
    "Verif.Props.C20_sequence_success",
    "Verif.Props.C20_sequence_failure",
    "Verif.Props.C20_sequence_values"
   ],
   "note": ""
  },
  {
   "property": "C21",
   "status": "proved",
   "theorems": [
    "Verif.Props.C21_repetition_success",
    "Verif.Props.C21_repetition_failure"
   ],
   "note": ""
  },
  {
   "property": "C22",
   "status": "partial",
   "theorems": [
    "Verif.Props.C22_accepted_terminates_partial",
    "Verif.Props.C22_accepted_but_hangs",
    "Verif.Props.C22_left_recursive_hangs",
    "Verif.Props.C22_certified_terminates_partial"
   ],
   "note": "Proved for every grammar that passes the computable certificate test and for every grammar the loader accepts that meets Accepted; false in general: accepted grammars that do not terminate are proved. C22_left_recursive_hangs: also a rule marked as left-recursive, A <- (A / 'x')*."
  },
  {
   "property": "C23",
   "status": "proved",
   "theorems": [
    "Verif.Props.C23_cut_sets_flag",
    "Verif.Props.C23_cut_scope",
    "Verif.Props.C23_cut_commits"
   ],
   "note": ""
  },
  {
   "property": "C24",
   "status": "proved",
   "theorems": [
    "Verif.Props.C24_capture",
    "Verif.Props.C24_backreference",
    "Verif.Props.C24_backreference_undefined",
    "Verif.Props.C24_capture_scope"
   ],
   "note": ""
  },
  {
   "property": "C25",
   "status": "proved",
   "theorems": [
    "Verif.Props.C25_token",
    "Verif.Props.C25_no_whitespace_inside"
   ],
   "note": ""
  },
  {
   "property": "C26",
   "status": "proved",
   "theorems": [
    "Verif.Props.C26_restored",
    "Verif.Props.C26_context_stays_sane"
   ],
   "note": ""
  },
  {
   "property": "C27",
   "status": "partial",
   "theorems": [
    "Verif.Props.C27_accepted_is_plain_peg_partial",
    "Verif.Props.C27_loaded_is_plain_peg_partial",
    "Verif.Props.C27_keyword_guard_unsound",
    "Verif.Props.C27_parse_is_plain_peg_partial",
    "Verif.Props.C27_parser_is_plain_peg_partial"
   ],
   "note": "Proved for certified grammars with right annotations, for the annotations the loader computes (keyword guards excepted), and for grammars the loader accepts that meet Accepted; keyword guards are wrong in general, counterexamples proved."
  },
  {
   "property": "C28",
   "status": "partial",
   "theorems": [
    "Verif.Props.C28_skipped_alternative_fails_partial",
    "Verif.Props.C28_annotations_transparent_partial",
    "Verif.Props.C28_order_irrelevant_partial",
    "Verif.Props.C28_first_sets_unsound"
   ],
   "note": "Proved for every grammar whose rules pass the computable tests (and UTF-8 input), for any order of visiting the rules; false in general for left-recursive nullable rules, cuts before the first character, white space skipped after empty matches, cross-case ranges and overlong U+0000: counterexamples proved."
  },
  {
   "property": "C29",
   "status": "partial",
   "theorems": [
    "Verif.Props.C29_fixed_point",
    "Verif.Props.C29_order_irrelevant",
    "Verif.Props.C29_derivation_partial",
    "Verif.Props.C29_parse_partial",
    "Verif.Props.C29_bytes_partial",
    "Verif.Props.C29_cut_wrong",
    "Verif.Props.C29_bounded_repetition_wrong",
    "Verif.Props.C29_empty_literal_wrong",
    "Verif.Props.C29_back_reference_wrong",
    "Verif.Props.C29_macro_wrong",
    "Verif.Props.C29_malformed_wrong"
   ],
   "note": "The computed flags are proved to be the least fixed point for every grammar and order; soundness is proved for grammars without the nodes the analysis gets wrong (cut, bounded repetition of nullable, empty literals under repetition, back references, macros); false in general, counterexamples proved."
  },
  {
   "property": "C30",
   "status": "partial",
   "theorems": [
    "Verif.Props.C30_no_empty_iteration_partial",
    "Verif.Props.C30_round_consumes_partial",
    "Verif.Props.C30_accepted_but_hangs",
    "Verif.Props.C30_load_uses_the_check"
   ],
   "note": "Proved for grammars meeting LoopHyp (no nodes the nullability analysis gets wrong, no recursive nullable rules, loop bodies whose parts before the first consuming element are simple); false in general: four accepted grammars are proved not to terminate. The loop check also accepts A <- (A / 'x')* (C22_left_recursive_hangs)."
  },
  {
   "property": "C31",
   "status": "partial",
   "theorems": [
    "Verif.Props.C31_static_partial",
    "Verif.Props.C31_not_entered_again_partial",
    "Verif.Props.C31_guard_unused_partial",
    "Verif.Props.C31_unmarked_but_reentered",
    "Verif.Props.C31_load_uses_the_check"
   ],
   "note": "Proved statically, for all derivations, and for the engine (guard replaced by a trap) for grammars without the nodes the analysis gets wrong; false in general: three unmarked rules are proved to be re-entered."
  },
  {
   "property": "C32",
   "status": "partial",
   "theorems": [
    "Verif.Props.C32_accepts_the_same_as_iteration",
    "Verif.Props.C32_values_nest_to_the_left",
    "Verif.Props.C32_parse_accepts_the_same_as_iteration_partial",
    "Verif.Props.C32_parse_value_nests_to_the_left_partial",
    "Verif.Props.C32_mode_blind_table",
    "Verif.Props.C32_given_up_round_leaves_capture"
   ],
   "note": "For every rule A <- A r1 / ... / A rn / b1 / ... / bk of every grammar of the reference semantics: same matches, captures and failures as (b1/.../bk)(r1/.../rn)* at every position (predicates may not look at values, r must consume), values nested to the left (no precedence climbing in r). The engine does this for certified grammars (Ready: the rule is called in one mode, no captures); outside, C32_mode_blind_table and C32_given_up_round_leaves_capture are counterexamples on the engine model. Indirect left recursion and left-recursive macros are not covered."
  },
  {
   "property": "C33",
   "status": "proved",
   "theorems": [
    "Verif.Props.C33_growing_strictly_increases",
    "Verif.Props.C33_left_recursive_rule",
    "Verif.Props.C33_growing_terminates"
   ],
   "note": ""
  },
  {
   "property": "C34",
   "status": "partial",
   "theorems": [
    "Verif.Props.C34_instruction_shape",
    "Verif.Props.C34_one_tree",
    "Verif.Props.C34_value_is_that_of_the_tree",
    "Verif.Props.C34_every_sequence_is_parsed",
    "Verif.Props.C34_fails_only_without_operand",
    "Verif.Props.C34_missing_operand_fails_all",
    "Verif.Props.C34_parse_builds_right_tree_partial",
    "Verif.Props.C34_packrat_loses_operator_witness"
   ],
   "note": "Specification PrecTree.lean (trees respecting levels and associativity; exactly one per operand/operator sequence, for every table). Proved in the reference semantics for every table, input and grammar: a match reads the input as operands and operators, stops before no table operator, and has the value of that tree; conversely every such reading is parsed; it fails only without an operand or with a dangling operator, and a dangling operator fails the whole expression. Transferred to the engine for certified grammars (parse finishes, same result and value). Missing: packrat parsing (false there when the operator rule is memoised, see C34_packrat_loses_operator_witness), grammars with captures, precedence rules inside macros, predicates and leave hooks on the rule itself in the engine-level statement; std::map construction of the table is taken as given."
  },
  {
   "property": "C35",
   "status": "partial",
   "theorems": [
    "Verif.Props.C35_expansion_same_meaning_partial",
    "Verif.Props.C35_expansion_same_parse_partial",
    "Verif.Props.C35_capture",
    "Verif.Props.C35_nested_call_hangs",
    "Verif.Props.C35_back_reference",
    "Verif.Props.C35_choice"
   ],
   "note": "Proved (all inputs, all grammars): a grammar and its textual expansion (relation Expands: a call is replaced by the macro's body with the arguments for the parameters, repeatedly) have the same meaning in the reference semantics, and certified grammars give the same parse result, length and values, for macro arguments that are 'flat' (no reference named like a macro parameter, no parameter inside the arguments of a call that is itself an argument, no back references). Each restriction is shown necessary by a witness: C35_capture (unhygienic names), C35_nested_call_hangs (infinite recursion on every text), C35_back_reference (null pointer), C35_choice (choice() lost). Missing: left-recursive macros, precedence climbing and recovery inside macros (outside the reference semantics). Grammars with left-recursive rules are excluded (hypothesis noLR)."
  },
  {
   "property": "C36",
   "status": "partial",
   "theorems": [
    "Verif.Props.C36_references_resolve_partial",
    "Verif.Props.C36_unresolved_refused",
    "Verif.Props.C36_linked",
    "Verif.Props.C36_simple_grammar_safe_partial",
    "Verif.Props.C36_careful_grammar_safe_partial",
    "Verif.Props.C36_unchecked_argument",
    "Verif.Props.C36_loaded_but_unresolved",
    "Verif.Props.C36_no_start_rule",
    "Verif.Props.C36_precedence_ignored_operator",
    "Verif.Props.C36_literal_lookup_safe",
    "Verif.Props.C36_parameter_call_null"
   ],
   "note": "Reading the text is a separate model (C52, C53); here rules are given as operator trees with names; left-recursion and loop checks are arbitrary oracles. Resolution proved for all references except inside argument lists of parameter references (false there, witness). Safety of parses proved for all loaded grammars without macros/labels/user operators/precedence, and for all others under conditions the loader does not check (Careful); without them false, counterexamples proved. The literal looked up for error reports is not part of that safety claim; it is safe if no rule calls one of its parameters with arguments (C36_literal_lookup_safe), otherwise the lookup dereferences null (C36_parameter_call_null)."
  },
  {
   "property": "C37",
   "status": "proved",
   "theorems": [
    "Verif.Props.C37_recovered_sticks",
    "Verif.Props.C37_recovery_marks",
    "Verif.Props.C37_parse_reports_recovery",
    "Verif.Props.C37_true_means_nothing_recovered"
   ],
   "note": ""
  },
  {
   "property": "C38",
   "status": "proved",
   "theorems": [
    "Verif.Props.C38_parse_true_iff"
   ],
   "note": ""
  },
  {
   "property": "C39",
   "status": "proved",
   "theorems": [
    "Verif.Props.C39_leaves_kept",
    "Verif.Props.C39_nothing_left",
    "Verif.Props.C39_idempotent",
    "Verif.Props.C39_unchanged",
    "Verif.Props.C39_chain",
    "Verif.Props.C39_chain_covers",
    "Verif.Props.C39_nested",
    "Verif.Props.C39_optimize_memory",
    "Verif.Props.C39_line_is_not_that_of_position",
    "Verif.Props.C39_of_parse"
   ],
   "note": ""
  },
  {
   "property": "C40",
   "status": "partial",
   "theorems": [
    "Verif.Props.C40_round_trip_partial",
    "Verif.Props.C40_serializable_partial",
    "Verif.Props.C40_canonical_partial",
    "Verif.Props.C40_dictionary_partial",
    "Verif.Props.C40_word_lost"
   ],
   "note": "Round trip proved for all grammars with sizes below 2^32 whose dictionaries have no word that is a proper prefix of an earlier one (this condition is proved necessary for dictionaries); counterexample proved otherwise. First sets, keyword guards and whitespace attachment are recomputed from the restored operators and not repeated in the model of load_blob."
  },
  {
   "property": "C41",
   "status": "partial",
   "theorems": [
    "Verif.Props.C41_reads_partial",
    "Verif.Props.C41_magic_partial",
    "Verif.Props.C41_truncated_partial",
    "Verif.Props.C41_overread",
    "Verif.Props.C41_null_body"
   ],
   "note": "Termination, clean refusal without magic number and of truncated blobs, and that the unchecked string copy and null operators are the only faults are proved for all byte strings; the general claim is false, two counterexamples proved."
  },
  {
   "property": "C42",
   "status": "partial",
   "theorems": [
    "Verif.Props.C42_no_packrat_partial",
    "Verif.Props.C42_same_start_partial",
    "Verif.Props.C42_numbering_stable",
    "Verif.Props.C42_other_start_rule_changes_result",
    "Verif.Props.C42_other_start_rule_out_of_bounds"
   ],
   "note": "Proved for any history when the start rule does no packrat parsing, and with packrat for histories that use other start rules only before the first use of this one. False otherwise: counterexamples proved (changed result, index out of range)."
  },
  {
   "property": "C43",
   "status": "partial",
   "theorems": [
    "Verif.Props.C43_schedule_irrelevant",
    "Verif.Props.C43_no_interference_partial",
    "Verif.Props.C43_no_data_race_partial",
    "Verif.Props.C43_no_deadlock_partial",
    "Verif.Props.C43_precedence_interferes"
   ],
   "note": "Proved for every number of threads and every schedule (sequentially consistent steps, one access each; call_once blocking), with race freedom and absence of deadlock, for grammars without precedence climbing; false with precedence climbing, schedule with a wrong result and data race proved. Callbacks are pure functions; loggers, tracers and packrat statistics are not modelled."
  },
  {
   "property": "C44",
   "status": "partial",
   "theorems": [
    "Verif.Props.C44_logger_removed_partial",
    "Verif.Props.C44_logger_added_partial",
    "Verif.Props.C44_logger_changes_language",
    "Verif.Props.C44_logging_transparent_partial"
   ],
   "note": "Proved for certified grammars and, for every grammar and history, if no reachable left-recursive macro passes on its parameters without calling a macro and %whitespace calls no macro. False without that: C44_logger_changes_language. Stated for parses without a tracer (see C65)."
  },
  {
   "property": "C45",
   "status": "proved",
   "theorems": [
    "Verif.Props.C45_literal",
    "Verif.Props.C45_literal_necessary"
   ],
   "note": ""
  },
  {
   "property": "C46",
   "status": "proved",
   "theorems": [
    "Verif.Props.C46_word_boundary",
    "Verif.Props.C46_word_continues_fails"
   ],
   "note": ""
  },
  {
   "property": "C47",
   "status": "proved",
   "theorems": [
    "Verif.Props.C47_parse_is_derivation",
    "Verif.Props.C47_no_recovery",
    "Verif.Props.C47_values"
   ],
   "note": ""
  },
  {
   "property": "C48",
   "status": "proved",
   "theorems": [
    "Verif.Props.C48_utf8_boundaries"
   ],
   "note": ""
  },
  {
   "property": "C49",
   "status": "proved",
   "theorems": [
    "Verif.Props.C49_ast_of_parse",
    "Verif.Props.C49_ast_utf8"
   ],
   "note": ""
  },
  {
   "property": "C50",
   "status": "proved",
   "theorems": [
    "Verif.Props.C50_reports_advance",
    "Verif.Props.C50_reports_inside",
    "Verif.Props.C50_report_count"
   ],
   "note": ""
  },
  {
   "property": "C51",
   "status": "proved",
   "theorems": [
    "Verif.Props.C51_mode_chosen",
    "Verif.Props.C51_recognise_only_unobservable"
   ],
   "note": ""
  },
  {
   "property": "C52",
   "status": "proved",
   "theorems": [
    "Verif.Props.C52_reading_ends"
   ],
   "note": "Reader = bootstrap grammar (rules transcribed) + actions, run by the engine model. An exception inside an action ends the parse at once in the code, at the end in the model."
  },
  {
   "property": "C53",
   "status": "proved",
   "theorems": [
    "Verif.Props.C53_written_is_read",
    "Verif.Props.C53_notation_unambiguous",
    "Verif.Props.C53_every_grammar_can_be_written",
    "Verif.Props.C53_sample_is_read",
    "Verif.Props.C53_sample_is_printable",
    "Verif.Props.C53_counterexample_big_count",
    "Verif.Props.C53_counterexample_escape_overflow",
    "Verif.Props.C53_counterexample_long_escape",
    "Verif.Props.C53_counterexample_empty_alternative",
    "Verif.Props.C53_counterexample_glued_arrow",
    "Verif.Props.C53_counterexample_mixed_dictionary",
    "Verif.Props.C53_counterexample_instruction_after_precedence"
   ],
   "note": "For all texts in the notation of MetaSpec.lean, instructions in braces and all escapes included. Texts outside that notation which the reader happens to accept (some juxtapositions without spacing, unclosed quotes in operators, surrogates via \\u) are not covered. Where the reader departs from what one would expect the notation says so, and the departure is proved as a counterexample (counts above 2^64, nine-digit escapes, empty alternatives, glued arrow, mixed dictionaries, instructions after precedence)."
  },
  {
   "property": "C54",
   "status": "partial",
   "theorems": [
    "Verif.Props.C54_reading_is_typed",
    "Verif.Props.C54_reading_never_crashes",
    "Verif.Props.C54_read_is_regular",
    "Verif.Props.C54_crash_needs_long_escape",
    "Verif.Props.C54_loading_ends",
    "Verif.Props.C54_loaded_text_resolves",
    "Verif.Props.C54_loaded_text_safe_partial",
    "Verif.Props.C54_careful_text_safe_partial",
    "Verif.Props.C54_careful_sample",
    "Verif.Props.C54_sample",
    "Verif.Props.C54_counterexample_long_escape",
    "Verif.Props.C54_counterexample_no_start"
   ],
   "note": "Proved for every UTF-8 text without overlong escapes (no \\x or \\u followed by 8 hex digits, no \\ followed by 11 digits): reading ends in a refusal or regular definitions; loading ends unless all names begin with %. The two excluded cases are real failures (C54_counterexample_*). Safety of the resulting parser: texts without macros, labels, precedence (C54_loaded_text_safe_partial), others under conditions on the loaded rules (C54_careful_text_safe_partial, sample with macro, label and precedence). Rules passed by the user: C67. The literal looked up for error reports: C36_literal_lookup_safe, C36_parameter_call_null."
  },
  {
   "property": "C55",
   "status": "partial",
   "theorems": [
    "Verif.Props.C55_meaning_is_unique",
    "Verif.Props.C55_parser_recognises_its_text_partial",
    "Verif.Props.C55_well_formed_text_partial",
    "Verif.Props.C55_sample",
    "Verif.Props.C55_sample_accepts",
    "Verif.Props.C55_counterexample_keyword"
   ],
   "note": "Proved end to end, from bytes of the grammar text to the answer, for well-formed texts (WellFormed: conditions on the rules of the text alone, in the manner of Ford: no loop over what may match nothing, no rule calling itself at its own position except in leading alternatives that begin with it, A <- A r / ... / b; plus no keyword-guard shape, case-insensitive classes uniform, no empty tokens with white space) without macros, captures, cuts, labels, recovery, precedence and other (indirect, hidden) left recursion; UTF-8 inputs, with or without packrat parsing (each rule then called in one way only), with or without logger. C60_well_formed_text_works adds that such a text is never refused by the loader's checks. In general false: C55_counterexample_keyword (the keyword-guard optimisation accepts what the text refuses); see also C27/C28 counterexamples."
  },
  {
   "property": "C56",
   "status": "partial",
   "theorems": [
    "Verif.Props.C56_unexpected_token",
    "Verif.Props.C56_token_inside",
    "Verif.Props.C56_token_printable",
    "Verif.Props.C56_token_empty",
    "Verif.Props.C56_replace_all",
    "Verif.Props.C56_pieces",
    "Verif.Props.C56_custom_message_partial",
    "Verif.Props.C56_counterexample_newline",
    "Verif.Props.C56_counterexample_end",
    "Verif.Props.C56_counterexample_percent",
    "Verif.Props.C56_syntax_error_text",
    "Verif.Props.C56_custom_report",
    "Verif.Props.C56_counterexample_raw_literal",
    "Verif.Props.C56_counterexample_nul"
   ],
   "note": "Proved for every report of every parse: rendering reads nothing outside the input and ends, line/column/position, format and order of the message, the structured lists equal the items of the message. The unexpected token is characterised for UTF-8 text from the position on (C56_unexpected_token) and bounded for any bytes. Custom messages: C56_custom_message_partial needs text parts without '%' and a position at a character other than '%' or a control character; counterexamples: '%c' at a line break shows a backslash, placeholders stay at the end of the input, '%tc' at '%', literals are neither escaped nor shown past a NUL."
  },
  {
   "property": "C57",
   "status": "proved",
   "theorems": [
    "Verif.Props.C57_handlers_nest",
    "Verif.Props.C57_enter_leave_paired",
    "Verif.Props.C57_action_once_per_match",
    "Verif.Props.C57_handlers_nest_loaded",
    "Verif.Props.C57_abandoned_calls_stay",
    "Verif.Props.C57_recovery_unseen",
    "Verif.Props.C57_precedence_actions"
   ],
   "note": "Handlers are observed through the user datum they are given; calls made while recovering from an error get a datum of their own (C57_recovery_unseen) and are not covered. Rules with a precedence instruction: pairing and nesting are proved, the number of their actions is not (they run per operator, C57_precedence_actions). A precedence instruction on a macro or on %whitespace is excluded. C++ exceptions thrown by handlers are not modelled."
  },
  {
   "property": "C58",
   "status": "partial",
   "theorems": [
    "Verif.Props.C58_reported",
    "Verif.Props.C58_first_furthest",
    "Verif.Props.C58_plain_only_without_messages",
    "Verif.Props.C58_message_origin",
    "Verif.Props.C58_rule_offers",
    "Verif.Props.C58_predicate_offers",
    "Verif.Props.C58_placeholders",
    "Verif.Props.C58_message_masks_error",
    "Verif.Props.C58_stale_label"
   ],
   "note": "Which message is reported and that nothing else is: every grammar and parse without recovery (C58_reported, C58_first_furthest, C58_plain_only_without_messages); origin of messages: every report, recovery included (C58_message_origin); placeholders: every message (C58_placeholders). That a failing rule offers its message is proved without packrat parsing, for rules that are neither macros nor left-recursive. Findings: a message hides failures further on (C58_message_masks_error); the library's messages keep the label of an earlier message (C58_stale_label)."
  },
  {
   "property": "C59",
   "status": "proved",
   "theorems": [
    "Verif.Props.C59_reports_at_characters",
    "Verif.Props.C59_half_character_witness"
   ],
   "note": ""
  },
  {
   "property": "C60",
   "status": "proved",
   "theorems": [
    "Verif.Props.C60_well_formed_text_loads",
    "Verif.Props.C60_well_formed_text_works",
    "Verif.Props.C60_left_recursion_found",
    "Verif.Props.C60_checks_are_silent",
    "Verif.Props.C60_sample",
    "Verif.Props.C60_sample_left_recursive",
    "Verif.Props.C60_sample_left_recursion_off",
    "Verif.Props.C60_sample_left_recursive_run",
    "Verif.Props.C60_sample_word",
    "Verif.Props.C60_sample_word_run",
    "Verif.Props.C60_sample_word_stops",
    "Verif.Props.C60_sample_word_meaning",
    "Verif.Props.C60_counterexample_parameter_name"
   ],
   "note": "For the core notation, from the bytes of the text; C60_checks_are_silent is the statement for the checks alone, for every operator except macros. Outside (macros) false: C60_counterexample_parameter_name (a parameter named like the calling rule is reported as left recursion)."
  },
  {
   "property": "C61",
   "status": "proved",
   "theorems": [
    "Verif.Props.C61_back_references_defined",
    "Verif.Props.C61_undefined_refused",
    "Verif.Props.C61_packrat_switch",
    "Verif.Props.C61_sample_refused",
    "Verif.Props.C61_counterexample_other_alternative"
   ],
   "note": "The walk over what was read stands for the actions that run while reading (in a text read to its end no capture, scope or back reference is read in an abandoned attempt). C61_counterexample_other_alternative: an accepted back reference may still be tried when nothing was captured."
  },
  {
   "property": "C62",
   "status": "proved",
   "theorems": [
    "Verif.Props.C62_evaluated_once",
    "Verif.Props.C62_remembered_evaluated_once",
    "Verif.Props.C62_linear",
    "Verif.Props.C62_sample_once",
    "Verif.Props.C62_sample_plain",
    "Verif.Props.C62_filter_misses_predicates_1",
    "Verif.Props.C62_filter_misses_predicates_2",
    "Verif.Props.C62_filter_misses_predicates_3",
    "Verif.Props.C62_left_recursion_again"
   ],
   "note": ""
  },
  {
   "property": "C63",
   "status": "partial",
   "theorems": [
    "Verif.Props.C63_restored_parser_partial",
    "Verif.Props.C63_sample",
    "Verif.Props.C63_captures_refused",
    "Verif.Props.C63_word_lost",
    "Verif.Props.C63_text_partial",
    "Verif.Props.C63_text_sample"
   ],
   "note": "C63_restored_parser_partial: for every loaded grammar within the limits of blobs (Def.storable) the restored parser equals the original for every listing and iteration order. Missing because false or refused: captures (C63_captures_refused, an exact characterisation) and dictionaries with a word that is a prefix of an earlier one (C63_word_lost); also not covered: case-insensitive dictionaries with upper-case words. C63_text_partial: the same for grammar texts, where is_token and the literals need not be assumed; excluded: arguments written behind a parameter, and a parameter called %recover. C63_sample, C63_text_sample: grammars with macros, precedence, white space, dictionary."
  },
  {
   "property": "C64",
   "status": "proved",
   "theorems": [
    "Verif.Props.C64_lines",
    "Verif.Props.C64_lines_plain",
    "Verif.Props.C64_print_determines_tree",
    "Verif.Props.C64_single_line_inputs",
    "Verif.Props.C64_optimised",
    "Verif.Props.C64_line_end_in_token"
   ],
   "note": ""
  },
  {
   "property": "C65",
   "status": "partial",
   "theorems": [
    "Verif.Props.C65_tracing_while_logging",
    "Verif.Props.C65_tracer_removed_partial",
    "Verif.Props.C65_tracer_added_partial",
    "Verif.Props.C65_tracer_changes_language"
   ],
   "note": "C65_tracing_while_logging: every grammar and history, exact equality. Without a logger: every grammar and history if no reachable left-recursive macro passes on its parameters without calling a macro and %whitespace calls no macro (as C44); false without that: C65_tracer_changes_language. Tracer callbacks are not modelled beyond their presence (they get constant references)."
  },
  {
   "property": "C66",
   "status": "partial",
   "theorems": [
    "Verif.Props.C66_result_same",
    "Verif.Props.C66_refusal_explained",
    "Verif.Props.C66_messages_justified",
    "Verif.Props.C66_warnings_exact",
    "Verif.Props.C66_undefined_reported",
    "Verif.Props.C66_sample_warning",
    "Verif.Props.C66_counterexample_false_warning"
   ],
   "note": "Result, justification of messages, explanation of refusals and (for texts that load) the exact set of warnings are proved for every text. Warnings of refused texts are right if all names referred to are defined; otherwise false: C66_counterexample_false_warning. Not modelled: line and column of messages, the names in messages about instructions and back references, the path in the infinite-loop message; left-recursion and loop verdicts as in C30/C31."
  },
  {
   "property": "C67",
   "status": "partial",
   "theorems": [
    "Verif.Props.C67_supplied_names",
    "Verif.Props.C67_rules",
    "Verif.Props.C67_supplied_parser",
    "Verif.Props.C67_text_rules_stay",
    "Verif.Props.C67_references_resolve",
    "Verif.Props.C67_safe_partial",
    "Verif.Props.C67_order",
    "Verif.Props.C67_none_supplied",
    "Verif.Props.C67_sample_runs",
    "Verif.Props.C67_sample",
    "Verif.Props.C67_macro_stays_macro",
    "Verif.Props.C67_counterexample_order"
   ],
   "note": "C67_rules, C67_supplied_parser, C67_text_rules_stay (rules without a precedence instruction), C67_references_resolve, C67_none_supplied: every UTF-8 text (no parameter called %recover, no supplied rule of that name). C67_order: if no two supplied rules are for one name; false otherwise (C67_counterexample_order: N and ~N). C67_safe_partial: under the conditions of C36. C67_macro_stays_macro: a macro for which a parser is supplied stays a macro. The literal looked up for error reports: C36_literal_lookup_safe."
  },
  {
   "property": "C68",
   "status": "partial",
   "theorems": [
    "Verif.Props.C68_last_load",
    "Verif.Props.C68_last_blob",
    "Verif.Props.C68_refused_text",
    "Verif.Props.C68_settings",
    "Verif.Props.C68_refused_blob_partial",
    "Verif.Props.C68_counterexample_unknown_rule",
    "Verif.Props.C68_blob_packrat",
    "Verif.Props.C68_sample",
    "Verif.Props.C68_sample_runs",
    "Verif.Props.C68_counterexample_refused_blob",
    "Verif.Props.C68_unknown_rule_runs"
   ],
   "note": "C68_last_load, C68_last_blob: every sequence of calls. C68_refused_text: every refused text. C68_settings: every UTF-8 text that loads (no parameter called %recover, no supplied rule of that name) and every sequence of settings and parses. A refused blob: unchanged if the bytes do not begin with the magic number (C68_refused_blob_partial); otherwise false, the start rule may change and the next parse may be undefined (C68_counterexample_refused_blob). Looking up an unknown rule does affect the object: a saved copy crashes the loader, for every parser that can be saved (C68_counterexample_unknown_rule). enable_packrat_parsing() after load_blob never has an effect (C68_blob_packrat)."
  }
 ]
}