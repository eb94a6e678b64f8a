{
 "claims": [
  {
   "property": "C01",
   "status": "partial",
   "theorems": [
    "Luafmt.C01_no_options_output",
    "Luafmt.C01_unchanged_partial",
    "Luafmt.C01_empty_table_is_changed",
    "Luafmt.C01_empty_table_comment_is_changed",
    "Luafmt.C01_half_comment_is_lost"
   ],
   "note": "C01_no_options_output describes the output of every accepted source when no option is set; C01_unchanged_partial derives the claim for sources without an empty table that spans lines with its closing brace not at the start of a line, and not ending in a half-open long comment. For those the claim is false, with witnesses."
  },
  {
   "property": "C02",
   "status": "partial",
   "theorems": [
    "Luafmt.C02_tokens_kept_partial",
    "Luafmt.C02_tokens_identical_partial",
    "Luafmt.C02_fails_for_cut_call",
    "Luafmt.C02_fails_for_ranges_beyond_ascii",
    "Luafmt.C02_fails_without_hints",
    "Luafmt.C02_fails_for_long_string_index",
    "Luafmt.C02_fails_for_unfinished_numeral",
    "Luafmt.C02_fails_for_joined_comment"
   ],
   "note": "Proved where the tokens stay apart (nothing removed, or hints written), also for runs with a line range over ASCII sources that do not end in a one-line comment and whose region does not end inside a call behind parentheses. The full claim is false: witnesses for removal without hints, [ followed by a long string, unfinished numerals, a comment joined to an operator, and for both other conditions on line ranges. Not settled: a line range over a source that ends in a one-line comment without a newline (C04 fails there)."
  },
  {
   "property": "C03",
   "status": "partial",
   "theorems": [
    "Luafmt.C03_same_program_partial",
    "Luafmt.C03_identical_program_partial",
    "Luafmt.C03_fails_without_hints",
    "Luafmt.C03_fails_for_joined_comment",
    "Luafmt.C03_fails_for_cut_call",
    "Luafmt.C03_fails_for_ranges_beyond_ascii"
   ],
   "note": "Proved for all sources, for every configuration and line range of the class of C02, under the condition KeepsApart (nothing is removed between tokens without a hint, no long string behind `[` then, no unfinished numerals). The claim is false outside of it: counterexamples are proved, some where the output is silently a different program (one of them without any option but a line range)."
  },
  {
   "property": "C04",
   "status": "partial",
   "theorems": [
    "Luafmt.C04_comments_survive_partial",
    "Luafmt.C04_fails_at_end_of_text",
    "Luafmt.C04_fails_for_open_comment",
    "Luafmt.C04_fails_for_empty_hint"
   ],
   "note": "Proved for all sources that do not end in --[ or --[=.. (with line ranges as for C02), with the exact new text of each comment where there is no line range; there (--[ at the end) the last comment loses its text (witness). Empty hints inside comments are excluded (witness). With a line range, a source that ends in a one-line comment without a newline is excluded (witness)."
  },
  {
   "property": "C05",
   "status": "partial",
   "theorems": [
    "Luafmt.C05_only_comments_removed_partial",
    "Luafmt.C05_range_partial",
    "Luafmt.C05_fails_without_hints"
   ],
   "note": "Textual claim proved for all blank hints; reading back needs hints between tokens (witness a=b--c). With a line range: the remaining comments are comments of the source, unchanged and in order."
  },
  {
   "property": "C06",
   "status": "partial",
   "theorems": [
    "Luafmt.C06_formatter_does_not_panic_partial",
    "Luafmt.C06_no_options_no_panic",
    "Luafmt.C06_harmless_run_has_output",
    "Luafmt.C06_panic_without_max_width",
    "Luafmt.C06_panic_without_max_width_lists",
    "Luafmt.C06_panic_with_unicode_option",
    "Luafmt.C06_panic_with_line_range"
   ],
   "note": "False in general; witnesses: newline_format_* with force_single_line_* but no max_width, a string option ending in a non-ASCII character, line_range with a non-ASCII source. Proved: a parsed program is formatted without panic for every configuration that avoids these (max_width set or the two options not combined, ASCII string options, no line range or ASCII source)."
  },
  {
   "property": "C07",
   "status": "proved",
   "theorems": [
    "Luafmt.C07_parsed_program_is_formatted",
    "Luafmt.C07_gaps_are_read_back"
   ],
   "note": "For every configuration and line range: once the source is parsed the run never ends in an error."
  },
  {
   "property": "C08",
   "status": "proved",
   "theorems": [
    "Luafmt.C08_indentation_is_restored"
   ],
   "note": "For every tree (parsed or not), state, configuration and range."
  },
  {
   "property": "C09",
   "status": "partial",
   "theorems": [
    "Luafmt.C09_before_partial",
    "Luafmt.C09_before_start_partial",
    "Luafmt.C09_after_partial",
    "Luafmt.C09_after_end_partial",
    "Luafmt.C09_lines_partial",
    "Luafmt.C09_before_fails",
    "Luafmt.C09_after_fails"
   ],
   "note": "Everything up to the end of the last statement before the selected lines and everything from the first statement after them is copied, for all programs and configurations (the latter without write_newline_at_eof). The full claim is false, proved with witnesses: the gap next to the selected statements is formatted, and write_newline_at_eof changes the end of the file."
  },
  {
   "property": "C10",
   "status": "proved",
   "theorems": [
    "Luafmt.C10_interval_is_sane",
    "Luafmt.C10_usable_numbers_select_their_lines",
    "Luafmt.C10_unusable_first_number",
    "Luafmt.C10_unusable_second_number",
    "Luafmt.C10_no_range"
   ],
   "note": ""
  },
  {
   "property": "C11",
   "status": "partial",
   "theorems": [
    "Luafmt.C11_plain_programs_are_safe",
    "Luafmt.C11_contains_the_request",
    "Luafmt.C11_whole_statements_partial",
    "Luafmt.C11_return_is_cut",
    "Luafmt.C11_group_is_cut"
   ],
   "note": "The region contains the request: proved in full. Whole statements: proved for all top-level statements except return statements and statements that the grammar groups in pairs (do end (f)()); both exceptions are counterexamples with witnesses. For programs without either of them every line range is safe in the sense of C02 and C03."
  },
  {
   "property": "C12",
   "status": "proved",
   "theorems": [
    "Luafmt.C12_conversion_keeps_value"
   ],
   "note": "The full Lua 5.3 escape grammar is in Spec.literalValue."
  },
  {
   "property": "C13",
   "status": "proved",
   "theorems": [
    "Luafmt.C13_converted_is_one_literal",
    "Luafmt.C13_conversion_idempotent"
   ],
   "note": ""
  },
  {
   "property": "C14",
   "status": "proved",
   "theorems": [
    "Luafmt.C14_bad_option_ignored",
    "Luafmt.C14_good_option_set"
   ],
   "note": ""
  },
  {
   "property": "C15",
   "status": "proved",
   "theorems": [
    "Luafmt.C15_set_other",
    "Luafmt.C15_value_ext",
    "Luafmt.C15_commute",
    "Luafmt.C15_last_wins"
   ],
   "note": ""
  },
  {
   "property": "C16",
   "status": "partial",
   "theorems": [
    "Luafmt.C16_config_file_first_values_partial",
    "Luafmt.C16_config_file_assignments_partial",
    "Luafmt.C16_bad_file",
    "Luafmt.C16_return_ignores_options",
    "Luafmt.C16_second_value_ignored"
   ],
   "note": "Exactly which options a config file sets is proved for every file except those that end in `return` after other statements; for files whose assignments have one variable and one value each this is the claim as stated. Both exceptions are proved to be counterexamples to the full claim."
  },
  {
   "property": "C17",
   "status": "partial",
   "theorems": [
    "Luafmt.C17_when_config_file_is_used",
    "Luafmt.C17_format_options_replace_config_file",
    "Luafmt.C17_otherwise_config_file",
    "Luafmt.C17_line_range_is_kept_partial",
    "Luafmt.C17_line_range_can_be_replaced"
   ],
   "note": "A configuration file may itself set line_range and so replace the one from the command line (witness C17_line_range_can_be_replaced). Everything else is proved; the line range is kept when the configuration file does not set it."
  },
  {
   "property": "C18",
   "status": "proved",
   "theorems": [
    "Luafmt.C18_nearest_is_found",
    "Luafmt.C18_none_found"
   ],
   "note": ""
  },
  {
   "property": "C19",
   "status": "proved",
   "theorems": [
    "Luafmt.C19_directory_selects_lua_files",
    "Luafmt.C19_named_file_is_taken"
   ],
   "note": ""
  },
  {
   "property": "C20",
   "status": "proved",
   "theorems": [
    "Luafmt.C20_one_file",
    "Luafmt.C20_whole_run",
    "Luafmt.C20_no_file_appears_or_vanishes"
   ],
   "note": ""
  },
  {
   "property": "C21",
   "status": "proved",
   "theorems": [
    "Luafmt.C21_files_are_independent"
   ],
   "note": "Stated for runs in which formatting no selected file panics (a panic ends the run)."
  },
  {
   "property": "C22",
   "status": "proved",
   "theorems": [
    "Luafmt.C22_arguments_are_split",
    "Luafmt.C22_options_are_read",
    "Luafmt.C22_assignments_unique",
    "Luafmt.C22_switch_order"
   ],
   "note": ""
  },
  {
   "property": "C23",
   "status": "partial",
   "theorems": [
    "Luafmt.C23_crash_loses_the_file",
    "Luafmt.C23_crash_partial"
   ],
   "note": "False of the code: the file is truncated before it is written (witness proved). Proved: at each moment the file has its old content or a prefix of its new content, and other files are untouched."
  },
  {
   "property": "C24",
   "status": "proved",
   "theorems": [
    "Luafmt.C24_tokens_tile",
    "Luafmt.C24_woven_text_is_read"
   ],
   "note": "Both directions: accepted texts are tiled, and tiled texts with delimited tokens are accepted."
  },
  {
   "property": "C25",
   "status": "proved",
   "theorems": [
    "Luafmt.C25_tree_covers_source"
   ],
   "note": "The reading of a tree is defined from a table of the words and parts of each construct (Spec/Syntax.lean), not from the printer. A shebang line at the very end may lack its line break."
  },
  {
   "property": "C26",
   "status": "proved",
   "theorems": [
    "Luafmt.C26_parser_finds_the_tree",
    "Luafmt.C26_unambiguous",
    "Luafmt.C26_rejects_only_without_tree"
   ],
   "note": "The grammar is the one of the .lalrpop file as data; lalrpop's own LR automaton is not modelled, but since the grammar is unambiguous every correct parser for it returns this tree."
  },
  {
   "property": "C27",
   "status": "proved",
   "theorems": [
    "Luafmt.C27_collapsed_constructs_fit"
   ],
   "note": ""
  },
  {
   "property": "C28",
   "status": "partial",
   "theorems": [
    "Luafmt.C28_no_options_idempotent_partial",
    "Luafmt.C28_table_fields_not_idempotent",
    "Luafmt.C28_call_chain_not_idempotent",
    "Luafmt.C28_relaid_idempotent_partial",
    "Luafmt.C28_comments_idempotent_partial",
    "Luafmt.C28_fails_for_comment_hint"
   ],
   "note": "Proved for configurations that rewrite the whole layout and keep the tokens apart (with comments removed; without comments; with comments kept where the lines they stand on make no difference and no separators are added or dropped), and for configurations without options (sources as in C01). False in general: three realistic configurations with witnesses."
  },
  {
   "property": "C29",
   "status": "proved",
   "theorems": [
    "Luafmt.C29_shebang_stays_first"
   ],
   "note": "For every configuration and line range; a run that fails has no output."
  },
  {
   "property": "C30",
   "status": "proved",
   "theorems": [
    "Luafmt.C30_newline_at_eof",
    "Luafmt.C30_output_ends_with_newline"
   ],
   "note": ""
  },
  {
   "property": "C31",
   "status": "partial",
   "theorems": [
    "Luafmt.C31_numeral_is_one_token_partial",
    "Luafmt.C31_plus_exponent_is_split",
    "Luafmt.C31_plus_exponent_is_torn"
   ],
   "note": "False in general: exponents with a plus sign are split (witness proved). Proved for all numerals without '+', '0X', hexadecimal fractions and exponents; copying to the output is part of C02."
  },
  {
   "property": "C32",
   "status": "partial",
   "theorems": [
    "Luafmt.C32_long_string_closes_partial",
    "Luafmt.C32_long_comment_closes_partial",
    "Luafmt.C32_backslash_hides_closer",
    "Luafmt.C32_backslash_swallows_code"
   ],
   "note": "False in general: a closing bracket behind a backslash is not recognised (witnesses proved). Proved for all bodies without backslashes."
  },
  {
   "property": "C33",
   "status": "partial",
   "theorems": [
    "Luafmt.C33_no_newlines_partial",
    "Luafmt.C33_single_line_partial",
    "Luafmt.C33_fails_with_max_width"
   ],
   "note": "Exact newline count proved, also for options whose value asks for no lines; the full claim is false with max_width (witness)."
  },
  {
   "property": "C34",
   "status": "partial",
   "theorems": [
    "Luafmt.C34_field_separators_partial"
   ],
   "note": "Proved for all sources and configurations of the class of C03 with field_separator set. Whether a table is put on one line (and then loses its trailing separator) is left open when force_single_line_table is set."
  },
  {
   "property": "C35",
   "status": "proved",
   "theorems": [
    "Luafmt.C35_printing_terminates",
    "Luafmt.C35_tests_do_not_repeat"
   ],
   "note": "The recursion of the Rust code with a call limit equals the structurally recursive model."
  },
  {
   "property": "C36",
   "status": "proved",
   "theorems": [
    "Luafmt.C36_stdin_mode",
    "Luafmt.C36_stdin_output"
   ],
   "note": ""
  },
  {
   "property": "C37",
   "status": "proved",
   "theorems": [
    "Luafmt.C37_trimming_twice",
    "Luafmt.C37_comment_text_stable",
    "Luafmt.C37_formatting_comment_stable",
    "Luafmt.C37_empty_hint_changes_the_kind"
   ],
   "note": "C37_trimming_twice is the claim for all texts and all blank hints. C37_comment_text_stable adds that the written comment is read as a comment of the same kind (not for empty hints: witness), C37_formatting_comment_stable states it for whole runs."
  },
  {
   "property": "C38",
   "status": "proved",
   "theorems": [
    "Luafmt.C38_parsing_error_iff_rejected",
    "Luafmt.C38_rejected_file",
    "Luafmt.C38_rejected_stdin"
   ],
   "note": "The text of the error message is not modelled."
  },
  {
   "property": "C39",
   "status": "proved",
   "theorems": [
    "Luafmt.C39_same_tokens_same_output",
    "Luafmt.C39_same_elements_same_output",
    "Luafmt.C39_one_line_tests_see_the_layout",
    "Luafmt.C39_comment_hint_sees_the_layout"
   ],
   "note": "Sources with the same tokens (and comments) give the same result, for every configuration that rewrites the layout; two theorems show that the conditions on one-line tests and on the hint before comments are needed."
  },
  {
   "property": "C40",
   "status": "partial",
   "theorems": [
    "Luafmt.C40_lines_partial",
    "Luafmt.C40_fails_for_empty_for",
    "Luafmt.C40_fails_for_empty_then",
    "Luafmt.C40_fails_for_inner_tables",
    "Luafmt.C40_fails_for_tables_on_lines",
    "Luafmt.C40_braces_partial"
   ],
   "note": "Proved for the output of every program whose tokens stay apart (as for C03), without line range: the tree of the output has a line, with the right indentation, at every place the specification Spec/Lines.lean lists, including fields, expressions of lists, chain suffixes and binary operators, also where these begin with a table; constructs that a force_single_line option may put on one line are covered: either they are on one line shorter than max_width or they have their lines. Not listed, because the claim is false there: the end of an empty numeric for, the else behind an empty then part (witnesses C40_fails_for_empty_for, C40_fails_for_empty_then) and items that begin with an operation whose first operand is a table if write_newline_at_multiline_table is set (C40_fails_for_tables_on_lines). With write_newline_at_multiline_table and without force_single_line_table the brace of every non-empty table begins a line (C40_braces_partial). Before the brace of a table the text of hint_table_constructor may stand behind the indentation (C40_fails_for_inner_tables). Expression lists and suffix chains are indented when an item begins a line and the indent option is set; whether one without such items is indented (the code measures it) is left open."
  },
  {
   "property": "C41",
   "status": "partial",
   "theorems": [
    "Luafmt.C41_items_are_aligned_partial"
   ],
   "note": "Proved for the output of every program whose tokens stay apart (as for C03), without line range; a list inside a construct that is on one line is excepted."
  },
  {
   "property": "C42",
   "status": "proved",
   "theorems": [
    "Luafmt.C42_blanks_between_tokens",
    "Luafmt.C42_no_blanks_at_the_beginning",
    "Luafmt.C42_no_blanks_at_the_end",
    "Luafmt.C42_doubled_blank_before_table",
    "Luafmt.C42_fails_without_options",
    "Luafmt.C42_fails_for_removed_comments"
   ],
   "note": "For pairs of tokens for which the tokens alone do not decide (for example a name and `(`, which may be a call or, in a function statement, its parameters) the theorem gives at most one blank. The doubled hint before `{` is shown as a witness; so is what happens without the options."
  },
  {
   "property": "C43",
   "status": "proved",
   "theorems": [
    "Luafmt.C43_behind_a_token",
    "Luafmt.C43_no_blanks_at_line_ends",
    "Luafmt.C43_fails_for_a_wide_table_hint",
    "Luafmt.C43_fails_for_lines_without_tokens",
    "Luafmt.C43_fails_without_options"
   ],
   "note": "The text behind every token is only blanks up to the next token, or begins with a newline, or is hint_before_comment and a comment. Witnesses: a table hint of two blanks leaves one at the end of the line (only one character is taken back), a line of blanks remains where a newline is asked for twice, without the options the blanks of the source stay."
  },
  {
   "property": "C44",
   "status": "proved",
   "theorems": [
    "Luafmt.C44_hint_before_a_comment"
   ],
   "note": "Follows from the same theorem as C43 (C43_behind_a_token); for the first comment behind a token on its line."
  },
  {
   "property": "C45",
   "status": "partial",
   "theorems": [
    "Luafmt.C45_one_line_or_broken_partial"
   ],
   "note": "Proved for the output of every program whose tokens stay apart (as for C03), without line range. Not said of the closing brace of a table without keys when force_single_line_table is set (the code may keep it on the line), and of the places named for C40."
  },
  {
   "property": "C46",
   "status": "proved",
   "theorems": [
    "Luafmt.C46_comments_begin_lines",
    "Luafmt.C46_fails_without_first",
    "Luafmt.C46_fails_without_later"
   ],
   "note": "For programs whose tokens stay apart (as for C03). Witnesses show that the options for first and for later comments are both needed."
  },
  {
   "property": "C47",
   "status": "proved",
   "theorems": [
    "Luafmt.C47_line_breaks_are_kept",
    "Luafmt.C47_empty_lines_are_kept",
    "Luafmt.C47_fails_removing_newlines",
    "Luafmt.C47_fails_removing_comments",
    "Luafmt.C47_fails_trimming_comments"
   ],
   "note": "For programs whose tokens stay apart (as for C03). Witnesses show that remove_all_newlines, remove_comments and the hints for the text of long comments take line breaks away."
  },
  {
   "property": "C48",
   "status": "proved",
   "theorems": [
    "Luafmt.C48_no_line_breaks_are_added",
    "Luafmt.C48_lines_are_unchanged",
    "Luafmt.C48_fails_in_empty_tables",
    "Luafmt.C48_zero_asks_for_statements",
    "Luafmt.C48_fails_behind_last_comment"
   ],
   "note": "For programs whose tokens stay apart (as for C03); options whose value asks for no lines may be set. Witnesses for both exceptions, and for newline_format_statement = 0, which asks."
  },
  {
   "property": "C49",
   "status": "proved",
   "theorems": [
    "Luafmt.C49_behind_a_long_comment",
    "Luafmt.C49_hint_after_a_long_comment",
    "Luafmt.C49_fails_without_options"
   ],
   "note": "For programs whose tokens stay apart (as for C03), without a line range. A witness shows that the blanks of the source stay without remove_spaces_between_tokens."
  },
  {
   "property": "C50",
   "status": "proved",
   "theorems": [
    "Luafmt.C50_behind_the_last_newline",
    "Luafmt.C50_first_token_of_a_line",
    "Luafmt.C50_fails_without_options",
    "Luafmt.C50_comments_are_not_indented"
   ],
   "note": "For programs whose tokens stay apart (as for C03), without a line range. The line behind a #! line is left out. Witnesses show that the blanks of the source stay without remove_spaces_between_tokens, and that comments at the beginning of a line are not indented."
  },
  {
   "property": "C51",
   "status": "partial",
   "theorems": [
    "Luafmt.C51_run_keeps_programs_partial",
    "Luafmt.C51_fails_without_hints"
   ],
   "note": "For files that meet the conditions of C03, are selected once and are no configuration files of others. The full claim is false (witness)."
  },
  {
   "property": "C52",
   "status": "partial",
   "theorems": [
    "Luafmt.C52_only_asked_lines_partial",
    "Luafmt.C52_fails_for_kept_lines",
    "Luafmt.C52_fails_for_comments",
    "Luafmt.C52_fails_for_removed_comments"
   ],
   "note": "Converse of C40 (lines begin only where asked). Proved for every token of the output except the separators , and ;, and { if write_newline_at_multiline_table is set; programs without a #! line, no line range, tokens that stay apart as for C03. Places are those of the tree that parses the output (Spec.Asked). Where max_width or force_single_line_* let the printer choose, 'asked' means the option may break the line there, not that it has to (C45 covers the choice)."
  },
  {
   "property": "C53",
   "status": "proved",
   "theorems": [
    "Luafmt.C53_bad_arguments_are_reported",
    "Luafmt.C53_effective_or_complaint",
    "Luafmt.C53_bad_settings_are_reported"
   ],
   "note": "Settings of a configuration file are those that the program reads (C16): the first variable and value of a top-level assignment, in a file that does not end in return after other statements."
  },
  {
   "property": "C54",
   "status": "proved",
   "theorems": [
    "Luafmt.C54_failures_are_reported",
    "Luafmt.C54_reports_are_failures",
    "Luafmt.C54_stdin_failures_are_reported"
   ],
   "note": "Reported failures are those of the model: reading, parsing, converting and writing; writing fails for files that may not be written. The file system a file is formatted in has the shape of the first one, with texts changed by the same run."
  },
  {
   "property": "C55",
   "status": "proved",
   "theorems": [
    "Luafmt.C55_listing",
    "Luafmt.C55_listing_is_faithful",
    "Luafmt.C55_values"
   ],
   "note": "The standard library's {:?} for bool, usize, String and pairs is modelled; its table of printable characters is a parameter. That the listing goes to stdout before each result is in the model of main (the text of that print is left out there)."
  }
 ]
}