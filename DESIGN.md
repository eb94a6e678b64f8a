# luafmt: formal model and proofs

Subject: `2lx/luafmt` at the commit in `/repo` (Rust), read as text. Model and proofs: Lean 4, in `lean/Verif`.
Properties: `properties.jsonl` (C01, C02, ...). Status per property: `MANIFEST.json`. Experiments with wrong
programs: `seeded/LOG.jsonl`.

## Trusted base

* The Lean 4.33.0 kernel.
* Axioms: only Lean's standard `propext`, `Quot.sound`, `Classical.choice`. No own axioms, no `sorry`/`admit`, no
  `native_decide`, no `bv_decide`, no `implemented_by`/`extern`. `decide +kernel` (used for concrete witnesses and
  examples, never for a general claim except for checks over finite tables such as the grammar or the option list)
  adds no axiom. The axioms of every property theorem are listed at the end of this file.
* The hand translation from Rust to Lean in `Verif/Model`. Each definition cites file and lines in `/repo` and says
  where it simplifies.
* The reading of third-party parts that are not in `/repo`:
  - `lalrpop`: a grammar is the set of its derivations; `@L`/`@R` are the start of the next / end of the previous
    symbol; a parse succeeds iff the token sequence has a derivation, and returns the tree that the actions build for
    it. That the generated LR(1) automaton does this is assumed; since the grammar is proved unambiguous (C26), any
    correct parser returns the same tree.
  - `regex` (the fixed expressions of `main.rs` and `config.rs`), `std` (`String`, `char`, `fs`, `Path`,
    `trim`, `parse`): modelled by hand.
* The specifications in `Verif/Spec` and the statements in `Verif/Props`, which have to be read to know what has been
  proved. They do not use the model's helper functions except where a property talks about them (`format`,
  `parseLua`, `lexLua`, `Config.set`, ... are the interface).

## What is modelled

| area | Rust | Lean |
|---|---|---|
| text, positions, results, panics | - | `Model/Basic` |
| lexer helpers | `parser/lexer_util.rs` | `Model/LexUtil` |
| Lua lexer | `parser/lua_lexer.rs` | `Model/LuaLexer` |
| comment lexer, comment grammar, comment tree | `parser/comment_lexer.rs`, `comment_syntax.lalrpop`, `comment_ast.rs` (data) | `Model/CommentLexer` |
| syntax tree | `parser/lua_ast.rs` (data) | `Model/Ast` |
| grammar | `parser/lua_syntax.lalrpop` | `Model/Grammar` (as data), `Model/Parser` (function) |
| configuration | `config.rs` | `Model/Config`, config files in `Model/Formatter`, listing (`-v`) in `Model/Display` |
| range, width tests, quote conversion, positions | `formatting/util.rs`, `parser/common.rs` | `Model/Util` |
| decorations (indent, newlines), hints, comment printing | `formatting/decoration.rs`, `formatting/loc_hint.rs`, `parser/comment_ast.rs` | `Model/CommentWrite` |
| printing: one template per arm of `configured_write` | `parser/lua_ast.rs:479-1219` | `Model/Template` |
| printing: execution, lists, one-line tests, tables | `parser/lua_ast.rs:136-1219`, `formatting/list.rs` | `Model/Write` |
| range growing, table options, string conversion | `formatting/reconstruction.rs` | `Model/Reconstruct` |
| formatting a buffer | `formatter.rs` | `Model/Formatter` |
| directories, config lookup, processing files | `file_util.rs`, `formatter.rs`, `config.rs` | `Model/Files` |
| command line, `main` | `main.rs` | `Model/Main` |

How:

* Text is `List Char`; a Rust `String` is a sequence of Unicode scalar values and so is this. Positions are character
  indexes as in the code; slices go through `charToByte` and `sliceBytes` as in the code (`State::chars_to_bytes`), and
  slicing off a character boundary or out of range is a panic, as in Rust.
* `Result` and panics are the three-valued `Res` (`ok`, `err`, `panic`); the result of a run is `Out`.
* `&mut State` becomes a returned value. The state's fields are reset on every path where the code resets them; C08
  proves that they are restored.
* The options of tables that `reconstruct_node_tree` fills in are computed by one walk (`annotate`) before printing. The
  two `Cell` fields that printing itself changes are part of the printer's state, keyed by the start of the node.
* A tree node is one constructor with a tag, the span, the recorded gaps, and the children; the tags correspond to the
  Rust constructors one to one.
* The parser is a recursive-descent function on the token sequence, proved sound and complete for the grammar data
  (`Proofs/ParserSound`, `Proofs/ParserComplete`), so no property depends on how it works.
* The recursion of the one-line tests (the printer calls itself on the same node) is unrolled; `Spec/Recursion` has
  the recursion as the Rust code does it, with a call limit, and C35 proves that they agree.

## What is not modelled

* the LR(1) automaton that lalrpop generates (replaced by the grammar's derivations);
* the texts of error messages (which token, which position) and the wording of `--verbose` printouts other than the
  listing of options (C55);
* integer overflow of `usize`/`isize` for positions and indentation levels; `2 * max_width` wraps around as in a release
  build (a debug build panics); parsing numbers from option strings rejects values of 2^64 and more;
* the operating system: a file system is a tree of files and directories; reading may fail; directory order is arbitrary
  but fixed; symbolic links, permissions changing during a run, concurrent writers, and names that are not Unicode are
  not modelled. Writing a file is truncation followed by writing a prefix (C23);
* write errors on stdout/stderr;
* stack depth: the Rust parser and printer recurse and may overflow the stack on deeply nested sources.

## How the proofs are organised

`Spec` holds what the statements need, `Proofs` the lemmas, `Props` the property theorems with an `example` beside each
that meets the hypotheses on a non-trivial case, and a theorem with a witness where the claim fails.

1. **Lexer** (`Seek`, `Comment`, `Reads`, `Lexer`, `LexAll`, `LexProps`): every scanning function characterised, one
   step of the lexer in both directions, then the token stream: tokens and gaps tile the text (`TilesR`), and a text
   woven from gaps and delimited tokens is read back (`lexFrom_weave`).
2. **Parser** (`Inversion`, `ParserSound`, `ParserComplete`, `FirstLast`): exactly the derivations; at most one.
3. **Trees** (`Tile`, `TileAll`, `Reading`, `LiveTree`, `Laid`, `Spans`): the parts of a parsed tree visit the tokens and
   gaps of the source in order; every recorded gap is a gap of the source; spans nest and cover.
4. **Printer** (`Items`, `Emit`, `EmitAll`): writing a node, whatever the state, renders the node's sequence of literal
   texts and gaps and restores the state (C08).
5. **Gaps** (`GapLex`, `GapWrite`, `GapSep`, `CommentText`): the comment lexer reads every gap; what is written for a gap is
   blanks and the gap's comments; when it separates the tokens around it.
6. **Output** (`Render`, `Adjacent`, `SepsAll`, `Output`, `OutElems`): the output as tokens and comments next to the
source's, and
   when the lexer reads it like that (C02, C04, C05, C33).
7. **Same program** (`Rewrite`, `RewriteTree`, `SameTree`): the output's tokens are those of a derivation tree for the same
   program (C03, C34).
8. **Progress** (`Live`, `LiveWrite`): no error, and panics only under stated conditions (C06, C07).
9. **Identity** (`Same`): with no options the printer copies (C01).
10. **Ranges** (`Ranges`, `Spans`, `Outside`, `RangeElems`): C09, C10, C11, and C02–C05 for runs with a line range
    (`Spec/RangeSafe`): raw pieces of the source count as tokens that are written as they are.
11. **Layout** (`Layout`, `LayoutGap`, `LayoutTree`, `Index`, `Relayout`): two trees with the same nodes and equally
written gaps
    are written alike; the tree of a source is the tree of its tokens with numbers replaced by positions (C39), and the
    output's tree has the same nodes (C28), with its gaps at the same token numbers where no separator is added or dropped.
12. **Lines** (`Marks`, `MarkRuns`, `MarkWrite`, `Calm`, `LinesTree`, `LastLine`): the printer marks the positions of the
    source before which it begins a line, with the level; every place of `Spec/Lines.lean` is marked, and the marks are
    carried to the tree of the output (C40). Where a one-line test succeeds, the marks tell the number of newlines
    before the construct and up to its end and the width there, so it is on one line in the output (C45). C41 reads off
that the items of one list are
    on one level. The last thing a chunk writes is its newline (C30). For the converse (`Asks`, `AskTree`, `AskMarks`,
`AskPair`,
    `AskLines`) the printer is shown to write a newline only before positions where an option asks for one; the literals
at other
    positions get a mark that they do not begin a line, and asked positions of the source's tree correspond to those of the
    output's (C52).
13. **Blanks** (`GapExact`, `SpacesAll`, `Spaced`): what is written for a gap without comments and newlines is the hint
    alone, and the hints between two tokens are those of the table in `Spec/Spacing.lean`, checked for all productions
    of the grammar (C42). What stands behind a token when a newline or a comment follows is read off the same
    walk (C43, C44). That comments begin lines (C46) is part of what is known of the text of every gap (`CommentLines`,
`GapWrite`),
    and so is that it has the line breaks of the gap it is written for (`KeptLines`, `KeptPairs`, C47),
    and without options about lines no others (C48). What follows a long comment on its line (`GapAfter`, C49) is its
hint and
    the hints of the places behind it, which are empty but for tables (`TailsAll`). In the same way a line begins with
    indentation and these hints (C50).
14. **Configuration, files, command line** (`Config`, `Cli`, `Files`, `SetText`): C14-C23, C36, C53-C55.

## Where the code disagrees with the claims

Proved with witnesses (theorem names in the table below):

* C01: with no option set an empty table that spans lines is rewritten (`t = {\n  }` becomes `t = {\n}`); a half-open long
  comment at the end (`--[==`) loses its text; a comment or shebang line at the end gains a newline.
* C02, C03, C05: with `remove_spaces_between_tokens` and no `replace_zero_spaces_with_hint`, tokens are joined: `local a`
  becomes `locala`, `b - -c` becomes `b--c` (a comment: the program silently changes); `t[ [[a]] ]` becomes `t[[[a]]]` in
  any case; `a - --[[c]] b` becomes `a ---[[c]]b`.
* C02, C03 with a line range and no other option: `return (f)(x,\n y)` with lines 1 to 1 becomes `return (f)` (the printer
  of a call behind parentheses that is cut by the region forgets its last part); with a character beyond ASCII in a
  comment, the gap to the next comment is sliced at the wrong place, and `c = 3 --[[é]] --[[y]] d = 4` becomes
  `c = 3 --[[é]]---[[y]] d = 4`: the last statement is lost.
* C04: `-- [[ x` with an empty `hint_before_oneline_comment_text` becomes the start of a long comment.
* C06: panics: `newline_format_*` with `force_single_line_*` but without `max_width` (`unwrap` on `None`); a string option
  that ends in a non-ASCII character (`formatted_comment_block[1..]`); a line range with a non-ASCII source.
* C09: the gap next to the selected statements is formatted as a whole; `write_newline_at_eof` changes the end of the file
  even if it is not selected.
* C11: a `return` statement, and statements that the grammar groups in pairs, are cut by the range.
* C16: a trailing `return` in a config file makes all its options ignored; `a, b = 1, 2` sets only `a`.
* C17: a config file may set `line_range` and so replace the one of the command line.
* C23: a file is truncated before it is written; a failure in between loses it.
* C28: three realistic configurations whose second run changes the output again.
* C31: `1e+5` is read as `1e`, `+`, `5`; hexadecimal fractions and `0X` are not supported.
* C32: `]` behind a backslash does not close a long bracket.
* C33: `max_width` writes a newline before `}` although `remove_all_newlines` is set.
* C40: a table inside a table field list may be pushed off the indentation by an extra `hint_table_constructor`;
  with `write_newline_at_multiline_table` the brace of a table that begins an operation is on the level of the operation; the
  `end` behind an empty body of a numeric `for` without step, and the `else` behind an empty `then` part, stay on
  their line.
* C52: `newline_format_first_oneline_comment` writes a line break even for a comment that `remove_comments` removes.
* C39: the one-line tests compare the width of the construct in the *source*, so the layout shows.

Found while modelling, not part of a property: the comparison of the range in `list.rs` for comments mixes absolute and
gap-relative positions; `force_single_line_table` drops a trailing separator; `write_trailing_field_separator` without
`field_separator` writes an empty separator; 13 of the 287 expectations in the repository's own tests disagree with
the model, all about `hint_table_constructor`/table newlines in tests that the repository's code (read as text) does
not meet either; `.luafmt.lua` of the repository itself uses options of the class for which C28 fails.

## Properties

* **C01** No options means no change: *partial*. C01_no_options_output describes the output of every accepted source
  when no option is set; C01_unchanged_partial derives the claim for sources without an empty table that spans lines
  with its closing brace not at the start of a line, and not ending in a half-open long comment. For those the claim is
  false, with witnesses. Theorems: `C01_no_options_output`, `C01_unchanged_partial`, `C01_empty_table_is_changed`,
  `C01_empty_table_comment_is_changed`, `C01_half_comment_is_lost`.
* **C02** Formatting keeps the token sequence: *partial*. Proved where the tokens stay apart (nothing removed, or hints
  written), also for runs with a line range over ASCII sources that do not end in a one-line comment and whose region
  does not end inside a call behind parentheses. The full claim is false: witnesses for removal without hints, [
  followed by a long string, unfinished numerals, a comment joined to an operator, and for both other conditions on line
  ranges. Not settled: a line range over a source that ends in a one-line comment without a newline (C04 fails there).
  Theorems: `C02_tokens_kept_partial`, `C02_tokens_identical_partial`, `C02_fails_for_cut_call`,
  `C02_fails_for_ranges_beyond_ascii`, `C02_fails_without_hints`, `C02_fails_for_long_string_index`,
  `C02_fails_for_unfinished_numeral`, `C02_fails_for_joined_comment`.
* **C03** Formatted output parses to the same program: *partial*. Proved for all sources, for every configuration and
  line range of the class of C02, under the condition KeepsApart (nothing is removed between tokens without a hint, no
  long string behind `[` then, no unfinished numerals). The claim is false outside of it: counterexamples are proved,
  some where the output is silently a different program (one of them without any option but a line range). Theorems:
  `C03_same_program_partial`, `C03_identical_program_partial`, `C03_fails_without_hints`,
  `C03_fails_for_joined_comment`, `C03_fails_for_cut_call`, `C03_fails_for_ranges_beyond_ascii`.
* **C04** Comments survive in order: *partial*. Proved for all sources that do not end in --[ or --[=.. (with line
  ranges as for C02), with the exact new text of each comment where there is no line range; there (--[ at the end) the
  last comment loses its text (witness). Empty hints inside comments are excluded (witness). With a line range, a source
  that ends in a one-line comment without a newline is excluded (witness). Theorems: `C04_comments_survive_partial`,
  `C04_fails_at_end_of_text`, `C04_fails_for_open_comment`, `C04_fails_for_empty_hint`.
* **C05** remove_comments removes comments and nothing else: *partial*. Textual claim proved for all blank hints;
  reading back needs hints between tokens (witness a=b--c). With a line range: the remaining comments are comments of
  the source, unchanged and in order. Theorems: `C05_only_comments_removed_partial`, `C05_range_partial`,
  `C05_fails_without_hints`.
* **C06** The formatter never crashes: *partial*. False in general; witnesses: newline_format_* with force_single_line_*
  but no max_width, a string option ending in a non-ASCII character, line_range with a non-ASCII source. Proved: a
  parsed program is formatted without panic for every configuration that avoids these (max_width set or the two options
  not combined, ASCII string options, no line range or ASCII source). Theorems: `C06_formatter_does_not_panic_partial`,
  `C06_no_options_no_panic`, `C06_harmless_run_has_output`, `C06_panic_without_max_width`,
  `C06_panic_without_max_width_lists`, `C06_panic_with_unicode_option`, `C06_panic_with_line_range`.
* **C07** A parsed program always gets formatted: *proved*. For every configuration and line range: once the source is
  parsed the run never ends in an error. Theorems: `C07_parsed_program_is_formatted`, `C07_gaps_are_read_back`.
* **C08** Indentation never leaks out of a construct: *proved*. For every tree (parsed or not), state, configuration and
  range. Theorems: `C08_indentation_is_restored`.
* **C09** line_range leaves the rest of the file alone: *partial*. Everything up to the end of the last statement before
  the selected lines and everything from the first statement after them is copied, for all programs and configurations
  (the latter without write_newline_at_eof). The full claim is false, proved with witnesses: the gap next to the
  selected statements is formatted, and write_newline_at_eof changes the end of the file. Theorems:
  `C09_before_partial`, `C09_before_start_partial`, `C09_after_partial`, `C09_after_end_partial`, `C09_lines_partial`,
  `C09_before_fails`, `C09_after_fails`.
* **C10** Line ranges map to text positions sanely: *proved*.  Theorems: `C10_interval_is_sane`,
  `C10_usable_numbers_select_their_lines`, `C10_unusable_first_number`, `C10_unusable_second_number`, `C10_no_range`.
* **C11** A selected range grows to whole top-level statements: *partial*. The region contains the request: proved in
  full. Whole statements: proved for all top-level statements except return statements and statements that the grammar
  groups in pairs (do end (f)()); both exceptions are counterexamples with witnesses. For programs without either of
  them every line range is safe in the sense of C02 and C03. Theorems: `C11_plain_programs_are_safe`,
  `C11_contains_the_request`, `C11_whole_statements_partial`, `C11_return_is_cut`, `C11_group_is_cut`.
* **C12** Quote conversion keeps the string value: *proved*. The full Lua 5.3 escape grammar is in Spec.literalValue.
  Theorems: `C12_conversion_keeps_value`.
* **C13** A converted string is one well-formed literal: *proved*.  Theorems: `C13_converted_is_one_literal`,
  `C13_conversion_idempotent`.
* **C14** Bad options change nothing: *proved*.  Theorems: `C14_bad_option_ignored`, `C14_good_option_set`.
* **C15** Options are independent and the last assignment wins: *proved*.  Theorems: `C15_set_other`, `C15_value_ext`,
  `C15_commute`, `C15_last_wins`.
* **C16** Config file means its top-level assignments in order: *partial*. Exactly which options a config file sets is
  proved for every file except those that end in `return` after other statements; for files whose assignments have one
  variable and one value each this is the claim as stated. Both exceptions are proved to be counterexamples to the full
  claim. Theorems: `C16_config_file_first_values_partial`, `C16_config_file_assignments_partial`, `C16_bad_file`,
  `C16_return_ignores_options`, `C16_second_value_ignored`.
* **C17** Command line format options replace the config file: *partial*. A configuration file may itself set line_range
  and so replace the one from the command line (witness C17_line_range_can_be_replaced). Everything else is proved; the
  line range is kept when the configuration file does not set it. Theorems: `C17_when_config_file_is_used`,
  `C17_format_options_replace_config_file`, `C17_otherwise_config_file`, `C17_line_range_is_kept_partial`,
  `C17_line_range_can_be_replaced`.
* **C18** The nearest configuration file is used: *proved*.  Theorems: `C18_nearest_is_found`, `C18_none_found`.
* **C19** Directory arguments select exactly the Lua files: *proved*.  Theorems: `C19_directory_selects_lua_files`,
  `C19_named_file_is_taken`.
* **C20** In-place mode writes only successful results: *proved*.  Theorems: `C20_one_file`, `C20_whole_run`,
  `C20_no_file_appears_or_vanishes`.
* **C21** Files of one run do not influence each other: *proved*. Stated for runs in which formatting no selected file
  panics (a panic ends the run). Theorems: `C21_files_are_independent`.
* **C22** Command line options are read as documented: *proved*.  Theorems: `C22_arguments_are_split`,
  `C22_options_are_read`, `C22_assignments_unique`, `C22_switch_order`.
* **C23** A crash during in-place writing keeps the old or the new text: *partial*. False of the code: the file is
  truncated before it is written (witness proved). Proved: at each moment the file has its old content or a prefix of
  its new content, and other files are untouched. Theorems: `C23_crash_loses_the_file`, `C23_crash_partial`.
* **C24** Tokens and gaps tile the source: *proved*. Both directions: accepted texts are tiled, and tiled texts with
  delimited tokens are accepted. Theorems: `C24_tokens_tile`, `C24_woven_text_is_read`.
* **C25** The syntax tree covers the whole source: *proved*. The reading of a tree is defined from a table of the words
  and parts of each construct (Spec/Syntax.lean), not from the printer. A shebang line at the very end may lack its line
  break. Theorems: `C25_tree_covers_source`.
* **C26** The grammar is unambiguous: *proved*. The grammar is the one of the .lalrpop file as data; lalrpop's own LR
  automaton is not modelled, but since the grammar is unambiguous every correct parser for it returns this tree.
  Theorems: `C26_parser_finds_the_tree`, `C26_unambiguous`, `C26_rejects_only_without_tree`.
* **C27** Collapsed constructs fit into max_width: *proved*.  Theorems: `C27_collapsed_constructs_fit`.
* **C28** Formatting is idempotent: *partial*. Proved for configurations that rewrite the whole layout and keep the
  tokens apart (with comments removed; without comments; with comments kept where the lines they stand on make no
  difference and no separators are added or dropped), and for configurations without options (sources as in C01). False
  in general: three realistic configurations with witnesses. Theorems: `C28_no_options_idempotent_partial`,
  `C28_table_fields_not_idempotent`, `C28_call_chain_not_idempotent`, `C28_relaid_idempotent_partial`,
  `C28_comments_idempotent_partial`, `C28_fails_for_comment_hint`.
* **C29** The shebang line stays first: *proved*. For every configuration and line range; a run that fails has no
  output. Theorems: `C29_shebang_stays_first`.
* **C30** write_newline_at_eof ends the file with a newline: *proved*.  Theorems: `C30_newline_at_eof`,
  `C30_output_ends_with_newline`.
* **C31** Numerals are copied whole: *partial*. False in general: exponents with a plus sign are split (witness proved).
  Proved for all numerals without '+', '0X', hexadecimal fractions and exponents; copying to the output is part of C02.
  Theorems: `C31_numeral_is_one_token_partial`, `C31_plus_exponent_is_split`, `C31_plus_exponent_is_torn`.
* **C32** Long brackets close where Lua closes them: *partial*. False in general: a closing bracket behind a backslash
  is not recognised (witnesses proved). Proved for all bodies without backslashes. Theorems:
  `C32_long_string_closes_partial`, `C32_long_comment_closes_partial`, `C32_backslash_hides_closer`,
  `C32_backslash_swallows_code`.
* **C33** No newlines when all newlines are removed: *partial*. Exact newline count proved, also for options whose value
  asks for no lines; the full claim is false with max_width (witness). Theorems: `C33_no_newlines_partial`,
  `C33_single_line_partial`, `C33_fails_with_max_width`.
* **C34** Only the configured field separators remain: *partial*. Proved for all sources and configurations of the class
  of C03 with field_separator set. Whether a table is put on one line (and then loses its trailing separator) is left
  open when force_single_line_table is set. Theorems: `C34_field_separators_partial`.
* **C35** Printing terminates: *proved*. The recursion of the Rust code with a call limit equals the structurally
  recursive model. Theorems: `C35_printing_terminates`, `C35_tests_do_not_repeat`.
* **C36** Standard input mode depends on input and options only: *proved*.  Theorems: `C36_stdin_mode`, `C36_stdin_output`.
* **C37** Comment text trimming is stable: *proved*. C37_trimming_twice is the claim for all texts and all blank hints.
  C37_comment_text_stable adds that the written comment is read as a comment of the same kind (not for empty hints:
  witness), C37_formatting_comment_stable states it for whole runs. Theorems: `C37_trimming_twice`,
  `C37_comment_text_stable`, `C37_formatting_comment_stable`, `C37_empty_hint_changes_the_kind`.
* **C38** Rejected sources produce no output: *proved*. The text of the error message is not modelled. Theorems:
  `C38_parsing_error_iff_rejected`, `C38_rejected_file`, `C38_rejected_stdin`.
* **C39** The layout of the source leaves no trace when all of it is rewritten: *proved*. Sources with the same tokens
  (and comments) give the same result, for every configuration that rewrites the layout; two theorems show that the
  conditions on one-line tests and on the hint before comments are needed. Theorems: `C39_same_tokens_same_output`,
  `C39_same_elements_same_output`, `C39_one_line_tests_see_the_layout`, `C39_comment_hint_sees_the_layout`.
* **C40** Bodies, closing words, list items and operators begin lines, indented by their nesting: *partial*. Proved for
  the output of every program whose tokens stay apart (as for C03), without line range: the tree of the output has a
  line, with the right indentation, at every place the specification Spec/Lines.lean lists, including fields,
  expressions of lists, chain suffixes and binary operators, also where these begin with a table; constructs that a
  force_single_line option may put on one line are covered: either they are on one line shorter than max_width or they
  have their lines. Not listed, because the claim is false there: the end of an empty numeric for, the else behind an
  empty then part (witnesses C40_fails_for_empty_for, C40_fails_for_empty_then) and items that begin with an operation
  whose first operand is a table if write_newline_at_multiline_table is set (C40_fails_for_tables_on_lines). With
  write_newline_at_multiline_table and without force_single_line_table the brace of every non-empty table begins a line
  (C40_braces_partial). Before the brace of a table the text of hint_table_constructor may stand behind the indentation
  (C40_fails_for_inner_tables). Expression lists and suffix chains are indented when an item begins a line and the
  indent option is set; whether one without such items is indented (the code measures it) is left open. Theorems:
  `C40_lines_partial`, `C40_fails_for_empty_for`, `C40_fails_for_empty_then`, `C40_fails_for_inner_tables`,
  `C40_fails_for_tables_on_lines`, `C40_braces_partial`.
* **C41** The items of one list are indented alike: *partial*. Proved for the output of every program whose tokens stay
  apart (as for C03), without line range; a list inside a construct that is on one line is excepted. Theorems:
  `C41_items_are_aligned_partial`.
* **C42** Blanks between tokens on one line follow the tokens, not the source: *proved*. For pairs of tokens for which
  the tokens alone do not decide (for example a name and `(`, which may be a call or, in a function statement, its
  parameters) the theorem gives at most one blank. The doubled hint before `{` is shown as a witness; so is what happens
  without the options. Theorems: `C42_blanks_between_tokens`, `C42_no_blanks_at_the_beginning`,
  `C42_no_blanks_at_the_end`, `C42_doubled_blank_before_table`, `C42_fails_without_options`,
  `C42_fails_for_removed_comments`.
* **C43** No blanks at the end of a line behind a token: *proved*. The text behind every token is only blanks up to the
  next token, or begins with a newline, or is hint_before_comment and a comment. Witnesses: a table hint of two blanks
  leaves one at the end of the line (only one character is taken back), a line of blanks remains where a newline is
  asked for twice, without the options the blanks of the source stay. Theorems: `C43_behind_a_token`,
  `C43_no_blanks_at_line_ends`, `C43_fails_for_a_wide_table_hint`, `C43_fails_for_lines_without_tokens`,
  `C43_fails_without_options`.
* **C44** hint_before_comment stands before a comment behind a token: *proved*. Follows from the same theorem as C43
  (C43_behind_a_token); for the first comment behind a token on its line. Theorems: `C44_hint_before_a_comment`.
* **C45** A construct is on one line shorter than max_width, or broken at all its places: *partial*. Proved for the
  output of every program whose tokens stay apart (as for C03), without line range. Not said of the closing brace of a
  table without keys when force_single_line_table is set (the code may keep it on the line), and of the places named for
  C40. Theorems: `C45_one_line_or_broken_partial`.
* **C46** Every comment begins a line when the comment options ask for it: *proved*. For programs whose tokens stay
  apart (as for C03). Witnesses show that the options for first and for later comments are both needed. Theorems:
  `C46_comments_begin_lines`, `C46_fails_without_first`, `C46_fails_without_later`.
* **C47** Line breaks and empty lines of the source are kept: *proved*. For programs whose tokens stay apart (as for
  C03). Witnesses show that remove_all_newlines, remove_comments and the hints for the text of long comments take line
  breaks away. Theorems: `C47_line_breaks_are_kept`, `C47_empty_lines_are_kept`, `C47_fails_removing_newlines`,
  `C47_fails_removing_comments`, `C47_fails_trimming_comments`.
* **C48** Without options about lines, no line break is added or moved: *proved*. For programs whose tokens stay apart
  (as for C03); options whose value asks for no lines may be set. Witnesses for both exceptions, and for
  newline_format_statement = 0, which asks. Theorems: `C48_no_line_breaks_are_added`, `C48_lines_are_unchanged`,
  `C48_fails_in_empty_tables`, `C48_zero_asks_for_statements`, `C48_fails_behind_last_comment`.
* **C49** Behind a long comment stands exactly its hint: *proved*. For programs whose tokens stay apart (as for C03),
  without a line range. A witness shows that the blanks of the source stay without remove_spaces_between_tokens.
  Theorems: `C49_behind_a_long_comment`, `C49_hint_after_a_long_comment`, `C49_fails_without_options`.
* **C50** Lines begin with whole levels of indentation: *proved*. For programs whose tokens stay apart (as for C03),
  without a line range. The line behind a #! line is left out. Witnesses show that the blanks of the source stay without
  remove_spaces_between_tokens, and that comments at the beginning of a line are not indented. Theorems:
  `C50_behind_the_last_newline`, `C50_first_token_of_a_line`, `C50_fails_without_options`,
  `C50_comments_are_not_indented`.
* **C51** An in-place run keeps the programs of a project: *partial*. For files that meet the conditions of C03, are
  selected once and are no configuration files of others. The full claim is false (witness). Theorems:
  `C51_run_keeps_programs_partial`, `C51_fails_without_hints`.
* **C52** Lines begin only where an option asks for them: *partial*. Converse of C40 (lines begin only where asked).
  Proved for every token of the output except the separators , and ;, and { if write_newline_at_multiline_table is set;
  programs without a #! line, no line range, tokens that stay apart as for C03. Places are those of the tree that parses
  the output (Spec.Asked). Where max_width or force_single_line_* let the printer choose, 'asked' means the option may
  break the line there, not that it has to (C45 covers the choice). Theorems: `C52_only_asked_lines_partial`,
  `C52_fails_for_kept_lines`, `C52_fails_for_comments`, `C52_fails_for_removed_comments`.
* **C53** Bad arguments and bad settings are reported, good arguments are not: *proved*. Settings of a configuration
  file are those that the program reads (C16): the first variable and value of a top-level assignment, in a file that
  does not end in return after other statements. Theorems: `C53_bad_arguments_are_reported`,
  `C53_effective_or_complaint`, `C53_bad_settings_are_reported`.
* **C54** Nothing fails silently: *proved*. Reported failures are those of the model: reading, parsing, converting and
  writing; writing fails for files that may not be written. The file system a file is formatted in has the shape of the
  first one, with texts changed by the same run. Theorems: `C54_failures_are_reported`, `C54_reports_are_failures`,
  `C54_stdin_failures_are_reported`.
* **C55** The verbose listing shows the configuration: *proved*. The standard library's {:?} for bool, usize, String and
  pairs is modelled; its table of printable characters is a parameter. That the listing goes to stdout before each
  result is in the model of main (the text of that print is left out there). Theorems: `C55_listing`,
  `C55_listing_is_faithful`, `C55_values`.

## Axioms per theorem

Output of `#print axioms`, grouped.

* none: `C22_arguments_are_split`, `C32_backslash_hides_closer`.
* `propext`: `C01_empty_table_comment_is_changed`, `C01_empty_table_is_changed`, `C01_half_comment_is_lost`,
  `C02_fails_for_cut_call`, `C02_fails_for_joined_comment`, `C02_fails_for_long_string_index`,
  `C02_fails_for_ranges_beyond_ascii`, `C02_fails_for_unfinished_numeral`, `C03_fails_without_hints`,
  `C04_fails_at_end_of_text`, `C04_fails_for_empty_hint`, `C04_fails_for_open_comment`, `C05_fails_without_hints`,
  `C06_panic_with_line_range`, `C06_panic_with_unicode_option`, `C06_panic_without_max_width`,
  `C06_panic_without_max_width_lists`, `C10_no_range`, `C11_group_is_cut`, `C11_return_is_cut`, `C15_set_other`,
  `C17_line_range_can_be_replaced`, `C17_line_range_is_kept_partial`, `C19_named_file_is_taken`,
  `C28_call_chain_not_idempotent`, `C28_fails_for_comment_hint`, `C28_table_fields_not_idempotent`,
  `C31_plus_exponent_is_split`, `C31_plus_exponent_is_torn`, `C32_backslash_swallows_code`, `C33_fails_with_max_width`,
  `C35_tests_do_not_repeat`, `C37_empty_hint_changes_the_kind`, `C39_comment_hint_sees_the_layout`,
  `C39_one_line_tests_see_the_layout`, `C40_fails_for_empty_for`, `C40_fails_for_empty_then`,
  `C40_fails_for_inner_tables`, `C40_fails_for_tables_on_lines`, `C42_doubled_blank_before_table`,
  `C42_fails_for_removed_comments`, `C42_fails_without_options`, `C43_fails_for_a_wide_table_hint`,
  `C43_fails_for_lines_without_tokens`, `C43_fails_without_options`, `C46_fails_without_first`,
  `C46_fails_without_later`, `C47_fails_removing_comments`, `C47_fails_removing_newlines`,
  `C47_fails_trimming_comments`, `C48_fails_behind_last_comment`, `C48_fails_in_empty_tables`,
  `C48_zero_asks_for_statements`, `C49_fails_without_options`, `C50_comments_are_not_indented`,
  `C50_fails_without_options`, `C51_fails_without_hints`, `C52_fails_for_comments`, `C52_fails_for_kept_lines`,
  `C52_fails_for_removed_comments`.
* `propext`, `Quot.sound`: `C02_fails_without_hints`, `C03_fails_for_cut_call`, `C03_fails_for_joined_comment`,
  `C03_fails_for_ranges_beyond_ascii`, `C09_after_fails`, `C09_before_fails`, `C14_bad_option_ignored`,
  `C14_good_option_set`, `C15_commute`, `C15_last_wins`, `C15_value_ext`, `C18_nearest_is_found`, `C18_none_found`,
  `C22_assignments_unique`, `C23_crash_loses_the_file`, `C27_collapsed_constructs_fit`, `C37_comment_text_stable`,
  `C37_trimming_twice`.
* `propext`, `Classical.choice`, `Quot.sound`: `C01_no_options_output`, `C01_unchanged_partial`,
  `C02_tokens_identical_partial`, `C02_tokens_kept_partial`, `C03_identical_program_partial`,
  `C03_same_program_partial`, `C04_comments_survive_partial`, `C05_only_comments_removed_partial`, `C05_range_partial`,
  `C06_formatter_does_not_panic_partial`, `C06_harmless_run_has_output`, `C06_no_options_no_panic`,
  `C07_gaps_are_read_back`, `C07_parsed_program_is_formatted`, `C08_indentation_is_restored`, `C09_after_end_partial`,
  `C09_after_partial`, `C09_before_partial`, `C09_before_start_partial`, `C09_lines_partial`, `C10_interval_is_sane`,
  `C10_unusable_first_number`, `C10_unusable_second_number`, `C10_usable_numbers_select_their_lines`,
  `C11_contains_the_request`, `C11_plain_programs_are_safe`, `C11_whole_statements_partial`,
  `C12_conversion_keeps_value`, `C13_conversion_idempotent`, `C13_converted_is_one_literal`, `C16_bad_file`,
  `C16_config_file_assignments_partial`, `C16_config_file_first_values_partial`, `C16_return_ignores_options`,
  `C16_second_value_ignored`, `C17_format_options_replace_config_file`, `C17_otherwise_config_file`,
  `C17_when_config_file_is_used`, `C19_directory_selects_lua_files`, `C20_no_file_appears_or_vanishes`, `C20_one_file`,
  `C20_whole_run`, `C21_files_are_independent`, `C22_options_are_read`, `C22_switch_order`, `C23_crash_partial`,
  `C24_tokens_tile`, `C24_woven_text_is_read`, `C25_tree_covers_source`, `C26_parser_finds_the_tree`,
  `C26_rejects_only_without_tree`, `C26_unambiguous`, `C28_comments_idempotent_partial`,
  `C28_no_options_idempotent_partial`, `C28_relaid_idempotent_partial`, `C29_shebang_stays_first`, `C30_newline_at_eof`,
  `C30_output_ends_with_newline`, `C31_numeral_is_one_token_partial`, `C32_long_comment_closes_partial`,
  `C32_long_string_closes_partial`, `C33_no_newlines_partial`, `C33_single_line_partial`,
  `C34_field_separators_partial`, `C35_printing_terminates`, `C36_stdin_mode`, `C36_stdin_output`,
  `C37_formatting_comment_stable`, `C38_parsing_error_iff_rejected`, `C38_rejected_file`, `C38_rejected_stdin`,
  `C39_same_elements_same_output`, `C39_same_tokens_same_output`, `C40_braces_partial`, `C40_lines_partial`,
  `C41_items_are_aligned_partial`, `C42_blanks_between_tokens`, `C42_no_blanks_at_the_beginning`,
  `C42_no_blanks_at_the_end`, `C43_behind_a_token`, `C43_no_blanks_at_line_ends`, `C44_hint_before_a_comment`,
  `C45_one_line_or_broken_partial`, `C46_comments_begin_lines`, `C47_empty_lines_are_kept`, `C47_line_breaks_are_kept`,
  `C48_lines_are_unchanged`, `C48_no_line_breaks_are_added`, `C49_behind_a_long_comment`,
  `C49_hint_after_a_long_comment`, `C50_behind_the_last_newline`, `C50_first_token_of_a_line`,
  `C51_run_keeps_programs_partial`, `C52_only_asked_lines_partial`, `C53_bad_arguments_are_reported`,
  `C53_bad_settings_are_reported`, `C53_effective_or_complaint`, `C54_failures_are_reported`,
  `C54_reports_are_failures`, `C54_stdin_failures_are_reported`, `C55_listing`, `C55_listing_is_faithful`, `C55_values`.
