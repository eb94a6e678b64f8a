import Verif.Model.Config

/-
Specification of the options: which options exist, what their values look like, and which setting of
the printer each of them controls. Written from the field list of `FormatOpts` (src/config.rs:39-102)
independently of `Config::set`.
-/
namespace Luafmt.Spec

/-- The value of an option. -/
inductive Value where
  | bool (b : Bool)
  | num (n : Nat)
  | text (s : Str)
  | range (a b : Nat)
  deriving DecidableEq

/-- What the printer sees of a setting. -/
def read (o : Opt) (c : Config) : Option Value :=
  match o with
  | .b o => (c.bool o).map .bool
  | .n o => (c.num o).map .num
  | .s o => (c.str o).map .text
  | .line => c.lineRange.map fun p => .range p.1 p.2

/-- The options by name, with the setting that the printer consults under that name. -/
def options : List (Str × Opt) := [
  (L!"convert_charstring_to_normalstring", .b .convertCharstringToNormalstring),
  (L!"field_separator", .s .fieldSeparator),
  (L!"force_single_line_binary_op", .b .forceSingleLineBinaryOp),
  (L!"force_single_line_exp_list", .b .forceSingleLineExpList),
  (L!"force_single_line_if", .b .forceSingleLineIf),
  (L!"force_single_line_iv_table_field", .b .forceSingleLineIvTableField),
  (L!"force_single_line_kv_table_field", .b .forceSingleLineKvTableField),
  (L!"force_single_line_scoped_function", .b .forceSingleLineScopedFunction),
  (L!"force_single_line_table", .b .forceSingleLineTable),
  (L!"force_single_line_top_level_function", .b .forceSingleLineTopLevelFunction),
  (L!"force_single_line_var_suffix", .b .forceSingleLineVarSuffix),
  (L!"hint_after_multiline_comment", .s .hintAfterMultilineComment),
  (L!"hint_after_multiline_comment_text", .s .hintAfterMultilineCommentText),
  (L!"hint_before_comment", .s .hintBeforeComment),
  (L!"hint_before_multiline_comment_text", .s .hintBeforeMultilineCommentText),
  (L!"hint_before_oneline_comment_text", .s .hintBeforeOnelineCommentText),
  (L!"hint_table_constructor", .s .hintTableConstructor),
  (L!"indent_exp_list", .b .indentExpList),
  (L!"indent_one_line_exp_list", .b .indentOneLineExpList),
  (L!"indent_one_line_var_suffix", .b .indentOneLineVarSuffix),
  (L!"indent_var_suffix", .b .indentVarSuffix),
  (L!"indentation_string", .s .indentationString),
  (L!"line_range", .line),
  (L!"max_width", .n .maxWidth),
  (L!"newline_format_binary_op", .n .newlineFormatBinaryOp),
  (L!"newline_format_do_end", .n .newlineFormatDoEnd),
  (L!"newline_format_exp_list", .n .newlineFormatExpList),
  (L!"newline_format_exp_list_first", .n .newlineFormatExpListFirst),
  (L!"newline_format_first_multiline_comment", .n .newlineFormatFirstMultilineComment),
  (L!"newline_format_first_oneline_comment", .n .newlineFormatFirstOnelineComment),
  (L!"newline_format_for", .n .newlineFormatFor),
  (L!"newline_format_function", .n .newlineFormatFunction),
  (L!"newline_format_if", .n .newlineFormatIf),
  (L!"newline_format_multiline_comment", .n .newlineFormatMultilineComment),
  (L!"newline_format_oneline_comment", .n .newlineFormatOnelineComment),
  (L!"newline_format_repeat_until", .n .newlineFormatRepeatUntil),
  (L!"newline_format_statement", .n .newlineFormatStatement),
  (L!"newline_format_table_constructor", .n .newlineFormatTableConstructor),
  (L!"newline_format_table_field", .n .newlineFormatTableField),
  (L!"newline_format_var_suffix", .n .newlineFormatVarSuffix),
  (L!"newline_format_while", .n .newlineFormatWhile),
  (L!"remove_all_newlines", .b .removeAllNewlines),
  (L!"remove_comments", .b .removeComments),
  (L!"remove_single_newlines", .b .removeSingleNewlines),
  (L!"remove_spaces_between_tokens", .b .removeSpacesBetweenTokens),
  (L!"replace_zero_spaces_with_hint", .b .replaceZeroSpacesWithHint),
  (L!"write_newline_at_eof", .b .writeNewlineAtEof),
  (L!"write_newline_at_explist_multiline_table", .b .writeNewlineAtExplistMultilineTable),
  (L!"write_newline_at_multiline_table", .b .writeNewlineAtMultilineTable),
  (L!"write_trailing_field_separator", .b .writeTrailingFieldSeparator)]

/-- The kinds of values. -/
inductive Kind where
  | bool | num | text | range
  deriving DecidableEq

/-- The kind of an option, by the spelling of its name: `hint_..`, `indentation_string` and
`field_separator` are texts, `newline_format_..` and `max_width` are numbers, `line_range` is a range,
everything else is a truth value. -/
def kindOf (name : Str) : Kind :=
  if (L!"hint_").isPrefixOf name ∨ name = L!"indentation_string" ∨ name = L!"field_separator" then .text
  else if (L!"newline_format_").isPrefixOf name ∨ name = L!"max_width" then .num
  else if name = L!"line_range" then .range
  else .bool

/-- The number denoted by a digit string, most significant digit first. -/
def decimal (ds : Str) : Nat := ds.foldl (fun acc d => 10 * acc + (d.toNat - '0'.toNat)) 0

/-- A digit string for a number below 2^64. -/
def IsNumber (s : Str) (n : Nat) : Prop :=
  s ≠ [] ∧ (∀ d ∈ s, '0' ≤ d ∧ d ≤ '9') ∧ decimal s = n ∧ n < 2 ^ 64

/-- `Denotes k s v`: the text `s` is a well-formed value of kind `k` and means `v`. -/
inductive Denotes : Kind → Str → Value → Prop
  | true : Denotes .bool L!"true" (.bool true)
  | false : Denotes .bool L!"false" (.bool false)
  | num {s n} : IsNumber s n → Denotes .num s (.num n)
  | plusNum {s n} : IsNumber s n → Denotes .num ('+' :: s) (.num n)
  | text {s} : Denotes .text s (.text s)
  | range {s t a b} : IsNumber s a → IsNumber t b → Denotes .range (s ++ ':' :: t) (.range a b)

/-- The value of the option `name` in a configuration (`none`: unset, or no such option). -/
def value (c : Config) (name : Str) : Option Value := (options.lookup name).bind fun o => read o c

/-- Is there an option of this name? -/
def Known (name : Str) : Prop := name ∈ options.map Prod.fst

/-- Does the value `n` of the option `o` ask for line breaks? Most options do so with the value 1; the operators with 1
(before them) and 2 (behind them); for statements, table fields and chains the option only has to be there; and
`max_width` puts the closing brace of a table that is too wide on a line of its own. -/
def asksLines (o : NOpt) (n : Nat) : Bool :=
  match o with
  | .newlineFormatStatement | .newlineFormatTableField | .newlineFormatVarSuffix | .maxWidth => true
  | .newlineFormatBinaryOp => n == 1 || n == 2
  | _ => n == 1

end Luafmt.Spec
