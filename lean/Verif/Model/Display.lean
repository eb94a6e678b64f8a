import Verif.Spec.Options

/-
Model of the listing of the options that `--verbose` prints ("Format options: .."), src/config.rs:329-406 and
src/formatter.rs:65-67.
-/
namespace Luafmt

/-- The escapes with a letter of their own in `char::escape_debug` (standard library), as used by `{:?}` for a `String`. -/
def escapeTable : List (Char × Char) :=
  [('\x00', '0'), ('\t', 't'), ('\r', 'r'), ('\n', 'n'), ('\\', '\\'), ('"', '"')]

/-- One character in `{:?}` of a `String`; `printable` is the table of the standard library of characters that are
written as they are. -/
def debugChar (printable : Char → Bool) (c : Char) : Str :=
  match escapeTable.lookup c with
  | some e => ['\\', e]
  | none => if printable c then [c] else L!"\\u{" ++ Nat.toDigits 16 c.toNat ++ ['}']

/-- `{:?}` of the values of the options (standard library), used by `print_opt!`, src/config.rs:331-337. -/
def debugValue (printable : Char → Bool) : Spec.Value → Str
  | .bool true => L!"true"
  | .bool false => L!"false"
  | .num n => Nat.toDigits 10 n
  | .text s => '"' :: (s.flatMap (debugChar printable) ++ ['"'])
  | .range a b => '(' :: (Nat.toDigits 10 a ++ L!", " ++ Nat.toDigits 10 b ++ [')'])

/-- The uses of `print_opt!` in order, src/config.rs:342-401. -/
def displayTable : List (Str × Opt) := [
  (L!"replace_zero_spaces_with_hint", .b .replaceZeroSpacesWithHint),
  (L!"hint_after_multiline_comment", .s .hintAfterMultilineComment),
  (L!"hint_after_multiline_comment_text", .s .hintAfterMultilineCommentText),
  (L!"hint_before_comment", .s .hintBeforeComment),
  (L!"hint_before_multiline_comment_text", .s .hintBeforeMultilineCommentText),
  (L!"hint_before_oneline_comment_text", .s .hintBeforeOnelineCommentText),
  (L!"hint_table_constructor", .s .hintTableConstructor),
  (L!"remove_comments", .b .removeComments),
  (L!"remove_single_newlines", .b .removeSingleNewlines),
  (L!"remove_all_newlines", .b .removeAllNewlines),
  (L!"remove_spaces_between_tokens", .b .removeSpacesBetweenTokens),
  (L!"write_newline_at_eof", .b .writeNewlineAtEof),
  (L!"write_newline_at_multiline_table", .b .writeNewlineAtMultilineTable),
  (L!"write_newline_at_explist_multiline_table", .b .writeNewlineAtExplistMultilineTable),
  (L!"indentation_string", .s .indentationString),
  (L!"indent_var_suffix", .b .indentVarSuffix),
  (L!"indent_one_line_var_suffix", .b .indentOneLineVarSuffix),
  (L!"indent_exp_list", .b .indentExpList),
  (L!"indent_one_line_exp_list", .b .indentOneLineExpList),
  (L!"newline_format_first_oneline_comment", .n .newlineFormatFirstOnelineComment),
  (L!"newline_format_first_multiline_comment", .n .newlineFormatFirstMultilineComment),
  (L!"newline_format_oneline_comment", .n .newlineFormatOnelineComment),
  (L!"newline_format_multiline_comment", .n .newlineFormatMultilineComment),
  (L!"newline_format_statement", .n .newlineFormatStatement),
  (L!"newline_format_do_end", .n .newlineFormatDoEnd),
  (L!"newline_format_for", .n .newlineFormatFor),
  (L!"newline_format_function", .n .newlineFormatFunction),
  (L!"newline_format_if", .n .newlineFormatIf),
  (L!"newline_format_repeat_until", .n .newlineFormatRepeatUntil),
  (L!"newline_format_table_constructor", .n .newlineFormatTableConstructor),
  (L!"newline_format_table_field", .n .newlineFormatTableField),
  (L!"newline_format_while", .n .newlineFormatWhile),
  (L!"newline_format_binary_op", .n .newlineFormatBinaryOp),
  (L!"newline_format_var_suffix", .n .newlineFormatVarSuffix),
  (L!"newline_format_exp_list", .n .newlineFormatExpList),
  (L!"newline_format_exp_list_first", .n .newlineFormatExpListFirst),
  (L!"field_separator", .s .fieldSeparator),
  (L!"write_trailing_field_separator", .b .writeTrailingFieldSeparator),
  (L!"convert_charstring_to_normalstring", .b .convertCharstringToNormalstring),
  (L!"max_width", .n .maxWidth),
  (L!"force_single_line_binary_op", .b .forceSingleLineBinaryOp),
  (L!"force_single_line_table", .b .forceSingleLineTable),
  (L!"force_single_line_iv_table_field", .b .forceSingleLineIvTableField),
  (L!"force_single_line_kv_table_field", .b .forceSingleLineKvTableField),
  (L!"force_single_line_if", .b .forceSingleLineIf),
  (L!"force_single_line_top_level_function", .b .forceSingleLineTopLevelFunction),
  (L!"force_single_line_scoped_function", .b .forceSingleLineScopedFunction),
  (L!"force_single_line_var_suffix", .b .forceSingleLineVarSuffix),
  (L!"force_single_line_exp_list", .b .forceSingleLineExpList),
  (L!"line_range", .line)]

/-- `print_opt!`, src/config.rs:331-337: nothing for an unset option. -/
def displayOpt (printable : Char → Bool) (c : Config) (p : Str × Opt) : Str :=
  match Spec.read p.2 c with
  | none => []
  | some v => '\t' :: (p.1 ++ L!": " ++ debugValue printable v ++ L!",\n")

/-- `Display for Config`, src/config.rs:329-406. -/
def Config.display (printable : Char → Bool) (c : Config) : Str :=
  L!"{\n" ++ displayTable.flatMap (displayOpt printable c) ++ L!"}"

end Luafmt
