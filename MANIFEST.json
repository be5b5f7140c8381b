{
 "claims": [
  {
   "property": "C01",
   "status": "proved",
   "theorems": [
    "Louis.Regexp.C01_match_iff_language",
    "Louis.Regexp.C01_length_in_language"
   ],
   "note": "For patterns without {min,max} (whose code is wrong, C02)."
  },
  {
   "property": "C02",
   "status": "partial",
   "theorems": [
    "Louis.Regexp.C02_range_quantifier_wrong",
    "Louis.Regexp.C02_range_actual",
    "Louis.Regexp.C02_range_tail_partial"
   ],
   "note": "The property is false of the code: {min,max} compiles to min copies followed by a loop over max-min copies; the counterexample and the exact language are proved."
  },
  {
   "property": "C03",
   "status": "partial",
   "theorems": [
    "Louis.Regexp.C03_leftmost_first_partial",
    "Louis.Regexp.C03_prefs_are_the_matches",
    "Louis.Regexp.C03_nullable_loop_wrong"
   ],
   "note": "Proved for all patterns whose loops have non-nullable bodies; for nullable loop bodies the property is false and a counterexample is proved."
  },
  {
   "property": "C04",
   "status": "proved",
   "theorems": [
    "Louis.Regexp.C04_capture_is_slice",
    "Louis.Regexp.C04_no_capture",
    "Louis.Regexp.C04_capture_matches_group"
   ],
   "note": ""
  },
  {
   "property": "C05",
   "status": "proved",
   "theorems": [
    "Louis.Regexp.C05_matching_terminates"
   ],
   "note": "No panic and no fuel exhaustion for any compiled pattern and any text."
  },
  {
   "property": "C06",
   "status": "proved",
   "theorems": [
    "Louis.C06_multipass_terminates",
    "Louis.C06_round_bound"
   ],
   "note": "Every compiled multipass stage returns exactly one result, without panic, within an explicit number of rounds. (context rules run in the main stage: see C09.)"
  },
  {
   "property": "C07",
   "status": "proved",
   "theorems": [
    "Louis.C07_trace_covers_input",
    "Louis.C07_no_rule_identity",
    "Louis.C07_translator"
   ],
   "note": ""
  },
  {
   "property": "C08",
   "status": "partial",
   "theorems": [
    "Louis.C08_zero_width_depends_on_history_wrong",
    "Louis.C08_fresh_after_consuming_rule_partial",
    "Louis.C72_stage_exact"
   ],
   "note": "The property is false of the code: counterexample proved; the part that holds is proved; exactly when a replacement of nothing is left out is `spent` in C72."
  },
  {
   "property": "C09",
   "status": "partial",
   "theorems": [
    "Louis.C09_main_loop_terminates_partial",
    "Louis.C09_translation_total_partial",
    "Louis.C09_round_bound"
   ],
   "note": "Whole translator from the rule list: exactly one finite trace for each compiled table, text and spans, unless a compbrl trigger starts with a space. Missing: that case, for which it is false (C30_table_hangs_wrong)."
  },
  {
   "property": "C10",
   "status": "partial",
   "theorems": [
    "Louis.C10_trace_covers_input_partial",
    "Louis.C10_lowercase_text_exact",
    "Louis.C10_length_exact",
    "Louis.C10_reported_case_wrong",
    "Louis.C10_translator_partial"
   ],
   "note": "Exact for texts without capitals and always exact in length; false in general: a rule reports its own lowercase characters (counterexample proved)."
  },
  {
   "property": "C11",
   "status": "proved",
   "theorems": [
    "Louis.C11_stages",
    "Louis.C11_composition",
    "Louis.C11_trace_is_translation"
   ],
   "note": "For every compiled table (any rules), both directions, any text and spans: stages and their order, composition, translation = last stage of the trace."
  },
  {
   "property": "C12",
   "status": "partial",
   "theorems": [
    "Louis.C12_only_rules_of_direction",
    "Louis.C12_same_stages_partial",
    "Louis.C12_other_direction_defines_wrong",
    "Louis.C12_direction_words"
   ],
   "note": "Proved: only rules allowed in the direction write anything, in any stage; same stages when no disallowed rule defines a character. The full statement is false of the code: definitions of the other direction still feed the classes of the multipass stages."
  },
  {
   "property": "C13",
   "status": "proved",
   "theorems": [
    "Louis.C13_found_rule_applies",
    "Louis.C13_applying_rule_found",
    "Louis.C13_find_exact"
   ],
   "note": "For every hash-map iteration order."
  },
  {
   "property": "C14",
   "status": "partial",
   "theorems": [
    "Louis.C14_line_used",
    "Louis.C14_translation",
    "Louis.C14_last_wins_wrong",
    "Louis.C14_two_always_wrong",
    "Louis.C14_first_wins_partial"
   ],
   "note": "False of the code as stated (first wins). Exact at the level of lines and whole translations: of the lines with the same opcode, conditions and text, the one used is the last if its opcode overrides earlier ones, the first otherwise."
  },
  {
   "property": "C15",
   "status": "proved",
   "theorems": [
    "Louis.C15_multipass_heaviest",
    "Louis.C15_longer_rule_heavier",
    "Louis.C15_primary_heaviest"
   ],
   "note": "Multipass and main stage: the applied candidate has maximal weight."
  },
  {
   "property": "C16",
   "status": "proved",
   "theorems": [
    "Louis.C16_per_character",
    "Louis.C16_first_rule",
    "Louis.C16_unmapped"
   ],
   "note": "Display tables: mapping is per character and length preserving, the first display rule allowed in the direction counts, unmapped characters are unchanged."
  },
  {
   "property": "C17",
   "status": "partial",
   "theorems": [
    "Louis.C17_first_definition_wins",
    "Louis.C17_later_rules",
    "Louis.C17_undefined",
    "Louis.C17_base",
    "Louis.C17_other_rules",
    "Louis.C17_implicit",
    "Louis.C17_implicit_error",
    "Louis.C17_base_overridden_wrong"
   ],
   "note": "Direct definitions: the first one counts, whatever else the table contains; base rules: exact recursion; = : exact. False of the code when the first definition of a character is a base rule: a later direct definition overrides it in the definitions but not in the translation (counterexample proved)."
  },
  {
   "property": "C18",
   "status": "partial",
   "theorems": [
    "Louis.C18_length_and_order",
    "Louis.C18_entries",
    "Louis.C18_range_partial",
    "Louis.C18_at_most_end",
    "Louis.C18_out_of_range_wrong"
   ],
   "note": "Length, monotonicity and exact entries for every trace; range holds when the last translation has a non-empty output, and is refuted in general (an index one past the end when trailing translations produce nothing)."
  },
  {
   "property": "C19",
   "status": "proved",
   "theorems": [
    "Louis.C19_variable_run",
    "Louis.C19_last_assignment_wins",
    "Louis.C19_frame",
    "Louis.C19_decrements",
    "Louis.C19_no_panic"
   ],
   "note": ""
  },
  {
   "property": "C20",
   "status": "proved",
   "theorems": [
    "Louis.C20_swap_append",
    "Louis.C20_swap_outside",
    "Louis.C20_swap_inside",
    "Louis.C20_table",
    "Louis.C20_table_undefined"
   ],
   "note": ""
  },
  {
   "property": "C21",
   "status": "proved",
   "theorems": [
    "Louis.C21_numeric_mode",
    "Louis.C21_number_sign",
    "Louis.C21_once",
    "Louis.C21_agree"
   ],
   "note": "Digits are the characters the table puts in the litdigit class."
  },
  {
   "property": "C22",
   "status": "proved",
   "theorems": [
    "Louis.C22_computer_braille_spans",
    "Louis.C22_emphasis_spans",
    "Louis.C22_computer_braille_signs",
    "Louis.C22_indicators_total",
    "Louis.C22_constraints_total"
   ],
   "note": "Arbitrary spans: no panic, exactly the covered positions are marked; all indicators and constraints of a text are computed without panicking (constraints: for non-empty sign dots and well-formed hyphenation patterns, which C24_accepted_file_wf gives for every accepted file)."
  },
  {
   "property": "C23",
   "status": "partial",
   "theorems": [
    "Louis.C23_before_a_word",
    "Louis.C23_after_a_word",
    "Louis.C23_prepunc_gated_partial",
    "Louis.C23_postpunc_gated_partial",
    "Louis.C23_nocross_not_gated_wrong"
   ],
   "note": "Where the flags are set: full. Gated items of every trace: rules without nocross; nocross prepunc rules escape the gate (counterexample)."
  },
  {
   "property": "C24",
   "status": "proved",
   "theorems": [
    "Louis.C24_break_points",
    "Louis.C24_pattern_values",
    "Louis.C24_accepted_file_wf",
    "Louis.C24_accepted_file",
    "Louis.C24_text_breaks",
    "Louis.C24_file_grammar",
    "Louis.C24_file_accepted",
    "Louis.C24_latin1_rejected"
   ],
   "note": "break_points, parse_pattern, the grammar of whole files (C24_file_grammar and its converse C24_file_accepted) and the hyphenation constrainer"
  },
  {
   "property": "C25",
   "status": "proved",
   "theorems": [
    "Louis.C25_nocross_never_spans_break",
    "Louis.C25_translator",
    "Louis.C25_nocross_words"
   ],
   "note": "For every trace, any hyphenation breaks."
  },
  {
   "property": "C26",
   "status": "proved",
   "theorems": [
    "Louis.C26_maximal_runs",
    "Louis.RunsOf.unique"
   ],
   "note": "find_spans returns exactly the maximal runs."
  },
  {
   "property": "C27",
   "status": "proved",
   "theorems": [
    "Louis.C27_announcements",
    "Louis.C27_signs",
    "Louis.C27_words",
    "Louis.C27_positions",
    "Louis.C27_word_terminators",
    "Louis.C27_unannounced_wrong",
    "Louis.C27_endcapsphrase_before_wrong",
    "Louis.letterAt_iff",
    "Louis.upperAt_iff",
    "Louis.isWordChar_iff"
   ],
   "note": "Output is that of a list of valid, non-overlapping announcements; every upper-case letter is announced exactly once provided a letter sign or mode sign is defined (C27_unannounced_wrong shows the proviso is needed). C27_signs is exact: the list of signs with their positions is the only one that the independent specification CapSigns (Spec/CapitalSigns.lean) allows for the words of the text. Finding: with endcapsphrase before, the endcapsphrase sign is never written (C27_endcapsphrase_before_wrong)."
  },
  {
   "property": "C28",
   "status": "partial",
   "theorems": [
    "Louis.C28_letter_signs",
    "Louis.C28_positions",
    "Louis.C28_nocontract_signs",
    "Louis.C28_contraction_ignores_noletsignafter_wrong"
   ],
   "note": "Exact characterisation of letter signs. The noletsignafter/noletsignbefore part is false of the code for contraction-based signs (counterexample proved)."
  },
  {
   "property": "C29",
   "status": "proved",
   "theorems": [
    "Louis.C29_positions",
    "Louis.C29_openers_and_closers_alternate",
    "Louis.C29_terminators_follow_openers",
    "Louis.C29_crossing_wrong",
    "Louis.C29_signs",
    "Louis.C29_openers_nested_partial",
    "Louis.C29_closers_nested_partial",
    "Louis.C29_nesting_wrong"
   ],
   "note": "Per class openers and closers alternate and enclose exactly the emphasised characters (C29_positions, C29_openers_and_closers_alternate); which sign is written where (letter, word, phrase, run signs) is characterised for every list of spans by C29_signs. Across classes brackets can cross (counterexamples proved; the claim that brackets of several classes nest is false), and nest for openers among themselves and closers among themselves. The model sorts stably; the comparison in the code is no total order, for which Rust 1.81+ sort_by may also panic with more than 20 signs (DESIGN.md, trusted base)."
  },
  {
   "property": "C30",
   "status": "partial",
   "theorems": [
    "Louis.C30_words_partial",
    "Louis.C30_diverges_wrong",
    "Louis.C30_table_hangs_wrong"
   ],
   "note": "Exact result whenever no trigger occurs at a space character; whenever one does, the scanner provably never terminates (finding)."
  },
  {
   "property": "C31",
   "status": "proved",
   "theorems": [
    "Louis.C31_range",
    "Louis.C31_conversion_cannot_fail",
    "Louis.C31_injective",
    "Louis.C31_extensional",
    "Louis.C31_cells_injective"
   ],
   "note": "All cells, as lists of dots."
  },
  {
   "property": "C32",
   "status": "proved",
   "theorems": [
    "Louis.C32_lines_cut",
    "Louis.C32_last_line",
    "Louis.C32_rule_line",
    "Louis.C32_accepted_iff",
    "Louis.C32_rejected_iff",
    "Louis.C32_reported_lines",
    "Louis.C32_in_line_order",
    "Louis.C32_rules_of_lines"
   ],
   "note": "The kinds of parse errors are not modelled, only the lines they are reported for."
  },
  {
   "property": "C33",
   "status": "proved",
   "theorems": [
    "Louis.C33_expansion_is_textual_inclusion",
    "Louis.C33_expansion_unique",
    "Louis.C33_deep_includes_rejected",
    "Louis.C33_circular_includes_rejected",
    "Louis.C33_reported_circle_is_one",
    "Louis.C33_dictionary_names"
   ],
   "note": "File system: find, canonicalize and read are arbitrary functions; two names of the same canonical file have the same contents."
  },
  {
   "property": "C34",
   "status": "proved",
   "theorems": [
    "Louis.C34_includes_rejected",
    "Louis.C34_include_line_rejected",
    "Louis.C34_same_as_file"
   ],
   "note": "From the table text on."
  },
  {
   "property": "C35",
   "status": "partial",
   "theorems": [
    "Louis.C35_decoding_is_exact",
    "Louis.C35_decoding_unique",
    "Louis.C35_plain_text_unchanged",
    "Louis.C35_homomorphism",
    "Louis.C35_homomorphism_fails_for_pairs",
    "Louis.C35_sign_accepted_wrong",
    "Louis.C35_multipass_backslash_wrong"
   ],
   "note": "Exact for the operands of ordinary rules. False for the strings of multipass operands (a double backslash is not decoded) and for numbers with a plus sign (accepted)."
  },
  {
   "property": "C36",
   "status": "partial",
   "theorems": [
    "Louis.C36_increment_rejected_wrong",
    "Louis.C36_only_assignments_partial"
   ],
   "note": "The property is false of the code: no accepted action operand contains #n+ or #n-; the only variable action that parses is the assignment #n=m."
  },
  {
   "property": "C37",
   "status": "partial",
   "theorems": [
    "Louis.C37_compiles_iff",
    "Louis.C37_no_panic_partial",
    "Louis.C37_nested_negation_wrong",
    "Louis.C37_negated_character",
    "Louis.C37_negated_boundary_wrong",
    "Louis.C37_negated_text_wrong"
   ],
   "note": "Exact characterisation of which accepted patterns compile: those where no pattern reads a negation under a negation. The first half of the property is false for !(!a); the second half is proved for single-character patterns, and shown false for negated boundaries and negated runs of characters."
  },
  {
   "property": "C38",
   "status": "partial",
   "theorems": [
    "Louis.C38_search_partial",
    "Louis.C38_empty_query_wrong"
   ],
   "note": "Exact for every non-empty query; the empty query panics."
  },
  {
   "property": "C39",
   "status": "partial",
   "theorems": [
    "Louis.C39_undefined_never_dropped",
    "Louis.C39_escape_text_injective",
    "Louis.C39_escape_cells_injective_partial",
    "Louis.C39_escape_ambiguous_wrong",
    "Louis.C39_translator"
   ],
   "note": "Every occurrence is translated as documented; the escape cells determine the character only if the table defines the digits (built-in cells of 3 and 9 coincide)."
  },
  {
   "property": "C40",
   "status": "partial",
   "theorems": [
    "Louis.C40_digits_after_sign",
    "Louis.C40_capital_words",
    "Louis.C40_capitals_only_change_case",
    "Louis.C40_digit_preferred_partial",
    "Louis.C40_contraction_in_number_wrong",
    "Louis.C40_letter_cells"
   ],
   "note": "Which cells are marked: proved exactly (unique reading). Effect on the translation: capitals change only the case, exactly where marked; digits: proved except that a contraction of several cells or a nocross rule still wins over the digits (proved wrong of the code)."
  },
  {
   "property": "C41",
   "status": "partial",
   "theorems": [
    "Louis.C41_same_candidates",
    "Louis.C41_deterministic_partial",
    "Louis.C41_hash_order_observable_wrong",
    "Louis.C41_untied",
    "Louis.C41_unconditioned",
    "Louis.C41_translator",
    "Louis.C41_translator_unconditioned"
   ],
   "note": "Proved for whole translators: traces are the same for all orders unless two different heaviest entries compete at a place (C41_translator); they never do in tables whose lines have no conditions. False of the code otherwise: equal weights under different conditions (C41_hash_order_observable_wrong)."
  },
  {
   "property": "C42",
   "status": "partial",
   "theorems": [
    "Louis.C42_panic_only_partial",
    "Louis.C42_no_translator",
    "Louis.C42_no_panic_partial",
    "Louis.C42_comparison_wrong",
    "Louis.C42_files_panic_only_partial"
   ],
   "note": "The property is false of the code; proved exactly where: for every table text, a panic occurs only if some accepted line for the direction compares a variable by <, <=, > or >= in a multipass test (not skipped backward) or is a match rule with text inside two negations, and a table with such a line never gives a translator. Same for tables in files with includes."
  },
  {
   "property": "C43",
   "status": "partial",
   "theorems": [
    "Louis.C43_characters",
    "Louis.C43_cells",
    "Louis.C43_tests_characters_partial",
    "Louis.C43_tests_cells_partial",
    "Louis.C43_swap_class_wrong",
    "Louis.C43_swap_class_table_wrong",
    "Louis.C43_stage",
    "Louis.C43_names",
    "Louis.C43_opcode_class",
    "Louis.C43_math_class_wrong"
   ],
   "note": "Membership of the tables of classes characterised exactly by the rules of the table; tests of a pass rule consult exactly those. What is missing is false of the code: cells of swap classes go into seqafterchars."
  },
  {
   "property": "C44",
   "status": "partial",
   "theorems": [
    "Louis.C44_spans_main_stage",
    "Louis.C44_spans_of_caller_partial",
    "Louis.C44_correct_shifts_wrong"
   ],
   "note": "The spans are used by the main stage only, as positions of the text that stage reads; that is the text of the caller when no correct rule takes part in forward translation. With correct rules the property is false of the code (C44_correct_shifts_wrong)."
  },
  {
   "property": "C45",
   "status": "partial",
   "theorems": [
    "Louis.C45_negated_test_partial",
    "Louis.C45_unset_variable_wrong"
   ],
   "note": "False of the code for unset variables; holds for set ones."
  },
  {
   "property": "C46",
   "status": "partial",
   "theorems": [
    "Louis.C46_uppercase_rule_dead_wrong",
    "Louis.C46_lowercase_rule_applies_partial"
   ],
   "note": "False of the code for characters that are not their own lowercase."
  },
  {
   "property": "C47",
   "status": "partial",
   "theorems": [
    "Louis.C47_condition_holds_partial",
    "Louis.C47_undefined_class_wrong",
    "Louis.C47_class_opcode_wrong",
    "Louis.C47_litdigit_wrong",
    "Louis.C47_math_wrong"
   ],
   "note": "Holds for classes with members. False of the code for classes without members, classes defined with the class opcode, and the names litdigit and math."
  },
  {
   "property": "C48",
   "status": "partial",
   "theorems": [
    "Louis.C48_prev_is_text_partial",
    "Louis.C48_rule_character_wrong"
   ],
   "note": "Holds on texts without capitals; false otherwise."
  },
  {
   "property": "C49",
   "status": "partial",
   "theorems": [
    "Louis.C49_layout_partial",
    "Louis.C49_every_indication_partial",
    "Louis.C49_indicator_lost_wrong"
   ],
   "note": "Exact layout of the trace; indications inside a contraction are lost."
  },
  {
   "property": "C50",
   "status": "proved",
   "theorems": [
    "Louis.pStep_round",
    "Louis.trace_item"
   ],
   "note": "pStep_round: what one round does; trace_item: every item of a trace was emitted at the position where its text begins."
  },
  {
   "property": "C51",
   "status": "partial",
   "theorems": [
    "Louis.C51_computer_braille_partial",
    "Louis.C51_no_contraction_partial",
    "Louis.C51_nocross_in_computer_braille_wrong"
   ],
   "note": "Holds without nocross rules; nocross rules ignore both gates."
  },
  {
   "property": "C52",
   "status": "partial",
   "theorems": [
    "Louis.C52_rule_semantics_partial",
    "Louis.C52_trace_justified_partial",
    "Louis.C52_any_attribute_wrong",
    "Louis.C52_negated_string_wrong",
    "Louis.C71_line_exact",
    "Louis.C72_stage_exact"
   ],
   "note": "False of the code for $a, $w-$z, negated strings of several characters (proved wrong), min-max counts (C02), look-back; for everything else the declarative reading is proved. What the code does for every instruction is C71/C72."
  },
  {
   "property": "C53",
   "status": "partial",
   "theorems": [
    "Louis.C53_match_semantics_partial",
    "Louis.C53_match_exact"
   ],
   "note": "C53_match_exact: exact for every match line in which * and + repeat only what reads a character; C53_match_semantics_partial for the others except nested negation and negated non-single-character bodies."
  },
  {
   "property": "C54",
   "status": "proved",
   "theorems": [
    "Louis.C54_dots_operand",
    "Louis.C54_dot_names"
   ],
   "note": "All operand strings."
  },
  {
   "property": "C55",
   "status": "proved",
   "theorems": [
    "Louis.C55_test_grammar",
    "Louis.C55_action_grammar",
    "Louis.C55_match_grammar",
    "Louis.C55_operand_parsers_total",
    "Louis.C55_grammar_unambiguous",
    "Louis.C55_dash_ignores_rest_wrong",
    "Louis.C55_letters",
    "Louis.C55_attribute_sets"
   ],
   "note": "Soundness and completeness of the three operand parsers against grammars in Spec/Operand.lean; the one deviation is a match operand that starts with a dash, whose rest is ignored (the grammar records it as such, and C55_dash_ignores_rest_wrong states it)."
  },
  {
   "property": "C56",
   "status": "proved",
   "theorems": [
    "Louis.C56_main_stage_explained",
    "Louis.C56_translation_explained"
   ],
   "note": "For every compiled main stage, in both directions, with every order of the hash maps. For match and context rules the explanation also contains their reading of the text, for the instructions covered by C52 and C53."
  },
  {
   "property": "C57",
   "status": "proved",
   "theorems": [
    "Louis.C57_line_explains",
    "Louis.C57_text_rule_placed",
    "Louis.anchor_distinct"
   ],
   "note": "The character before is the one the earlier pieces of the trace report; C48 relates it to the text."
  },
  {
   "property": "C58",
   "status": "proved",
   "theorems": [
    "Louis.C58_line_grammar",
    "Louis.C58_unambiguous",
    "Louis.C12_direction_words"
   ],
   "note": "Exact grammar in Spec/Lines.lean, with the operand grammars of Spec/Operand.lean."
  },
  {
   "property": "C59",
   "status": "proved",
   "theorems": [
    "Louis.C59_comment_ignored",
    "Louis.C59_trailing_words"
   ],
   "note": ""
  },
  {
   "property": "C60",
   "status": "partial",
   "theorems": [
    "Louis.C60_conditions_kept_partial",
    "Louis.C60_conditions_dropped_wrong"
   ],
   "note": "True of always, word, sufword, prfword, begword, begmidword, midword, midendword, endword, partword; false of every other opcode, which accepts the conditions and drops them."
  },
  {
   "property": "C61",
   "status": "proved",
   "theorems": [
    "Louis.C61_capitals",
    "Louis.C61_numbers",
    "Louis.C61_emphasis",
    "Louis.C61_computer_braille",
    "Louis.C61_letter_sign",
    "Louis.C61_no_contraction_sign",
    "Louis.C61_constraints_forward",
    "Louis.C61_constraints_backward"
   ],
   "note": "Every field of every indicator and constrainer of a compiled main stage, as a function of the lines of the table (Spec/Config)."
  },
  {
   "property": "C62",
   "status": "partial",
   "theorems": [
    "Louis.C62_computer_braille_partial",
    "Louis.C62_comp6_only_there",
    "Louis.C62_numbers_partial",
    "Louis.C62_nocross",
    "Louis.C62_prepunc_partial",
    "Louis.C62_postpunc_partial",
    "Louis.C62_capitals_backward",
    "Louis.C62_digit_readings",
    "Louis.C62_digits_backward_partial",
    "Louis.C62_sign_in_print_wrong",
    "Louis.C62_gates_of_ways"
   ],
   "note": "At the level of table lines and texts. Partial because rules marked nocross escape the computer-braille, number and punctuation gates (see C51, C23), contractions win over digits in backward direction, and signs are also written in backward direction (finding). C62_gates_of_ways says it for tables with nocross lines too: only items chosen as unbroken pieces escape the gates."
  },
  {
   "property": "C63",
   "status": "proved",
   "theorems": [
    "Louis.C63_results",
    "Louis.C63_number_of_results",
    "Louis.C63_errors",
    "Louis.C63_files_like_translator",
    "Louis.C63_inline_like_translator",
    "Louis.C63_ignored_options_wrong",
    "Louis.C63_unrun_modes_wrong",
    "Louis.C63_query_ends_file_wrong"
   ],
   "note": "Results of a file iff everything is usable, pointwise verdicts in order, errors traced to a table. Findings: the mode, cursor, position, expected_typeform and length options never influence a result; display/hyphenate suites yield no result; a query table discards the whole file; reversed tests keep the emphasis of the forward text. Reading of YAML by libyaml is outside the model; a run that does not terminate has no outcome (see C09)."
  },
  {
   "property": "C64",
   "status": "proved",
   "theorems": [
    "Louis.C64_test_file"
   ],
   "note": "iff between the reader over libyaml events and an independent grammar with in-force semantics of entries. libyaml itself is trusted."
  },
  {
   "property": "C65",
   "status": "proved",
   "theorems": [
    "Louis.C65_mask",
    "Louis.mask_spans",
    "Louis.maskSpans_iff"
   ],
   "note": "Spans are exactly the maximal runs in order; every + is covered."
  },
  {
   "property": "C66",
   "status": "proved",
   "theorems": [
    "Louis.C66_summary",
    "Louis.C66_printed",
    "Louis.C66_trace_rows"
   ],
   "note": "Percent formatting (NaN for files without tests) and table drawing are not modelled."
  },
  {
   "property": "C67",
   "status": "partial",
   "theorems": [
    "Louis.C67_query_grammar",
    "Louis.C67_query_answer",
    "Louis.C67_query_panics_wrong",
    "Louis.C67_query_command",
    "Louis.C67_unreadable_directory"
   ],
   "note": "The whole command over the directories of the search path: the answer is exact for every argument of the form k=v,...; one unreadable directory makes every query fail; the command panics exactly if a piece has no `=` (index out of bounds in main.rs), so the claim that it never panics is false of the code."
  },
  {
   "property": "C68",
   "status": "proved",
   "theorems": [
    "Louis.C68_main_stage_signs",
    "Louis.C68_translation_signs"
   ],
   "note": "Every sign of the main stage from the lines of the table: TableSigns (Props/TableSigns.lean) describes the signs of all six kinds with their positions, LaidOut where they stand in the trace. Signs at positions inside a contraction are not written (C49_indicator_lost_wrong), which LaidOut says exactly."
  },
  {
   "property": "C69",
   "status": "partial",
   "theorems": [
    "Louis.C69_no_longer_line",
    "Louis.C69_not_spelled_out",
    "Louis.C69_longest_match",
    "Louis.C69_translation",
    "Louis.C69_repeated_line_wrong",
    "Louis.C69_prepunc_hides_wrong",
    "Louis.C69_pattern_lines"
   ],
   "note": "Proved for all tables, texts and places for lines for text (in backward translation also character lines): such a line is never passed over for spelling out nor for a lighter line. C69_pattern_lines: the same for what match and context lines offer, stated over the exact description of the main stage (C73). What is left is false of the code. The _wrong theorems show why the weight of a line counts its conditions only if no other line of the same text has as many (a repeated line loses weight), and why prepunc/postpunc lines for the same text are excluded."
  },
  {
   "property": "C70",
   "status": "partial",
   "theorems": [
    "Louis.C70_line_shown",
    "Louis.C70_trace_shown",
    "Louis.C70_never_panics_partial",
    "Louis.C70_row_numbers",
    "Louis.C70_trace_panics_wrong",
    "Louis.C70_shown_ambiguous_wrong"
   ],
   "note": "False of the code: the trace panics (todo!()) when a line with one of the opcodes of unshownOpcodes is used (counterexample C70_trace_panics_wrong), and two different match lines are shown identically (C70_shown_ambiguous_wrong). Proved: it panics in exactly that case and otherwise shows a row for each item, with the opcode, the operands (as specified word by word in Spec/Show) and the stage of the line it comes from."
  },
  {
   "property": "C71",
   "status": "proved",
   "theorems": [
    "Louis.C71_line_exact"
   ],
   "note": "Exact: the compiled pattern finds precisely the first reading of an interpreter of tests (Spec/Passes) that does not mention regular expressions; TestsWritten and NoStep hold of every line of a table (parseLine_passWritten)."
  },
  {
   "property": "C72",
   "status": "proved",
   "theorems": [
    "Louis.C72_stage_exact",
    "Louis.C72_translator"
   ],
   "note": "Exact (iff): traces of a stage are the runs of an interpreter in which each item is a function of the items before it (Spec/Stage)."
  },
  {
   "property": "C73",
   "status": "proved",
   "theorems": [
    "Louis.C73_main_exact",
    "Louis.C73_table",
    "Louis.C73_translator"
   ],
   "note": "Every item of every trace is a function of the items before it; only the order of hash maps among entries (L) is free. Match lines with a loop of something nullable under * or + are excluded by the quantifier (PlainMatches)."
  },
  {
   "property": "C74",
   "status": "proved",
   "theorems": [
    "Louis.C74_round_trip",
    "Louis.C74_source"
   ],
   "note": "For whole translators and for table texts. checkReversible decides the hypothesis (checkReversible_sound); the example applies the theorem to a table with contractions, two-cell braille and lines for one direction only. Tables with signs (capitals, numbers) are outside the hypothesis."
  },
  {
   "property": "C75",
   "status": "proved",
   "theorems": [
    "Louis.C75_words",
    "Louis.C75_all_words",
    "Louis.C75_source",
    "Louis.C75_main_stage",
    "Louis.C75_letter_sign_wrong"
   ],
   "note": "Equivalence (the translations of the whole are exactly the concatenations). False of tables with a letter sign (C75_letter_sign_wrong): a letter standing alone gets the sign at the start of the text only."
  },
  {
   "property": "C76",
   "status": "partial",
   "theorems": [
    "Louis.C76_same_lines",
    "Louis.C76_unused_lines",
    "Louis.C76_added_lines",
    "Louis.C76_letter_cells_wrong",
    "Louis.C76_backward_wrong"
   ],
   "note": "Proved for all lines whose cells do not become letters, and for all lines in forward direction without pass2-pass4 lines; one translator agrees on all texts at once. False of the code otherwise: an unused always line over letters changes tests on cells and the reading of capitals (counterexamples proved)."
  },
  {
   "property": "C77",
   "status": "proved",
   "theorems": [
    "Louis.C77_exchange",
    "Louis.C77_same_word_order"
   ],
   "note": "For all tables that compile, in both directions and in either role of the two lines; the same translator for all texts at once. C77_same_word_order shows that lines for the same word cannot be exchanged."
  },
  {
   "property": "C78",
   "status": "proved",
   "theorems": [
    "Louis.Regexp.C78_linear_time",
    "Louis.Regexp.findAnchored_counted",
    "Louis.Regexp.addThread_counted",
    "Louis.Regexp.stepThreads_counted",
    "Louis.Regexp.runLoop_counted",
    "Louis.Regexp.compile_length",
    "Louis.C06_round_bound",
    "Louis.C09_round_bound"
   ],
   "note": "matchCost is the matcher of the model once more with a counter: one for each call of add_thread, each thread looked at and each pass of the while loop; the _counted theorems say that its result is the result of find_anchored. Clearing the bit set (one word per 64 instructions) and the hash set lookup count as one step."
  },
  {
   "property": "C79",
   "status": "proved",
   "theorems": [
    "Louis.C79_layout_source",
    "Louis.C79_layout_files"
   ],
   "note": "For all texts and all edits, accepted or not; for files with all the files they include. The layout of a hyphenation dictionary (.dic) is not part of it."
  },
  {
   "property": "C80",
   "status": "proved",
   "theorems": [
    "Louis.C80_pasted",
    "Louis.C80_rejected",
    "Louis.C80_pasted_unique",
    "Louis.C80_pasted_exists"
   ],
   "note": "Tables that include a hyphenation dictionary have no pasted text: from_table_source accepts no include of any kind (C34)."
  },
  {
   "property": "C81",
   "status": "proved",
   "theorems": [
    "Louis.C81_translate",
    "Louis.C81_session",
    "Louis.C81_session_exists",
    "Louis.C81_trace",
    "Louis.C81_trace_session"
   ],
   "note": "Termination of each answer is C09 (false only for computer-braille triggers that start with a space)."
  },
  {
   "property": "C82",
   "status": "partial",
   "theorems": [
    "Louis.C82_parse_table",
    "Louis.C82_parse_line",
    "Louis.C82_session",
    "Louis.C82_remark_partial",
    "Louis.C82_indented_comment_wrong"
   ],
   "note": "False of the code: in a session an indented comment or a line of blanks is answered with an error though a table ignores it (C82_indented_comment_wrong). Proved: exactly those lines differ; all others are answered as a table reads them."
  },
  {
   "property": "C83",
   "status": "proved",
   "theorems": [
    "Louis.C83_written_from_lines",
    "Louis.C83_only_cells",
    "Louis.C83_braille_block",
    "Louis.C83_copying_wrong"
   ],
   "note": "For all tables, texts and spans. The hypothesis that no context line copies the text it reads is part of the claim (C83_copying_wrong shows it is needed)."
  },
  {
   "property": "C84",
   "status": "proved",
   "theorems": [
    "Louis.C84_read_from_lines",
    "Louis.C84_letters_and_signs",
    "Louis.C84_copying_wrong"
   ],
   "note": "Backward translation writes only what the lines give; the hypothesis on copying context lines is needed (counterexample proved)."
  },
  {
   "property": "C85",
   "status": "proved",
   "theorems": [
    "Louis.C85_main_forward",
    "Louis.C85_written",
    "Louis.C85_main_backward",
    "Louis.C85_round_trip",
    "Louis.C85_source",
    "Louis.C85_sign_inside_wrong",
    "Louis.C85_order_wrong"
   ],
   "note": "Hypotheses: characters that the lines make capitals are not braille cells, cells have no lowercase, and the capital of the small letter read is the letter written (checked for the table of the example). letters written by `litdigit` lines are excluded; the counterexamples show why the other hypotheses are needed."
  },
  {
   "property": "C86",
   "status": "proved",
   "theorems": [
    "Louis.C86_main_forward",
    "Louis.C86_written",
    "Louis.C86_source",
    "Louis.C86_after_letter_wrong",
    "Louis.C86_after_number_wrong",
    "Louis.C86_order_wrong"
   ],
   "note": "LetterByLetter (Spec/Letters) with num = some sign; checkSpelling decides it. Reading back is a different claim and fails in general: a number directly after a letter, or a letter directly after a number, is not read back."
  },
  {
   "property": "C87",
   "status": "proved",
   "theorems": [
    "Louis.C87_main_backward",
    "Louis.C87_round_trip",
    "Louis.C87_source",
    "Louis.ownTable_readable"
   ],
   "note": "ReadableBack (Spec/Letters) with num = some sign; C85 is the case num = none. Hypotheses as for C85, and no cell is a digit."
  },
  {
   "property": "C88",
   "status": "proved",
   "theorems": [
    "Louis.C88_main_backward",
    "Louis.C88_round_trip",
    "Louis.C88_source",
    "Louis.numberTable_readable",
    "Louis.C86_after_letter_wrong",
    "Louis.C86_after_number_wrong",
    "Louis.C86_order_wrong"
   ],
   "note": "Digits with the cells of letters, as in most braille codes. Hypotheses: ReadableNumbers (table) and NumbersApart (text), both in Spec/Letters in terms of lines and cells; the C86 _wrong theorems show what happens without them."
  }
 ]
}