import Verif.Model.Basic

/-
Model of src/config.rs: the options, `Config::set`, and what the configuration file and the
command line need from it.
-/
namespace Luafmt

/-- The `Option<bool>` fields of `FormatOpts`, src/config.rs:39-102. -/
inductive BOpt where
  | replaceZeroSpacesWithHint
  | removeComments
  | removeSingleNewlines
  | removeAllNewlines
  | removeSpacesBetweenTokens
  | writeNewlineAtEof
  | writeNewlineAtMultilineTable
  | writeNewlineAtExplistMultilineTable
  | indentVarSuffix
  | indentOneLineVarSuffix
  | indentExpList
  | indentOneLineExpList
  | writeTrailingFieldSeparator
  | convertCharstringToNormalstring
  | forceSingleLineBinaryOp
  | forceSingleLineTable
  | forceSingleLineIvTableField
  | forceSingleLineKvTableField
  | forceSingleLineIf
  | forceSingleLineTopLevelFunction
  | forceSingleLineScopedFunction
  | forceSingleLineVarSuffix
  | forceSingleLineExpList
  deriving DecidableEq, Repr

/-- The `Option<usize>` fields of `FormatOpts`, src/config.rs:39-102. -/
inductive NOpt where
  | newlineFormatFirstOnelineComment
  | newlineFormatFirstMultilineComment
  | newlineFormatOnelineComment
  | newlineFormatMultilineComment
  | newlineFormatStatement
  | newlineFormatDoEnd
  | newlineFormatFor
  | newlineFormatFunction
  | newlineFormatIf
  | newlineFormatRepeatUntil
  | newlineFormatTableConstructor
  | newlineFormatTableField
  | newlineFormatWhile
  | newlineFormatBinaryOp
  | newlineFormatVarSuffix
  | newlineFormatExpList
  | newlineFormatExpListFirst
  | maxWidth
  deriving DecidableEq, Repr

/-- The `Option<String>` fields of `FormatOpts`, src/config.rs:39-102. -/
inductive SOpt where
  | hintAfterMultilineComment
  | hintAfterMultilineCommentText
  | hintBeforeComment
  | hintBeforeMultilineCommentText
  | hintBeforeOnelineCommentText
  | hintTableConstructor
  | indentationString
  | fieldSeparator
  deriving DecidableEq, Repr

/-- Names of all options as they appear in `Config::set`, src/config.rs:191-266. `line` is the
`line_range` option, which is not part of `FormatOpts`. -/
inductive Opt where
  | b (o : BOpt)
  | n (o : NOpt)
  | s (o : SOpt)
  | line
  deriving DecidableEq, Repr

/-- The arms of `Config::set` with their option names, src/config.rs:191-266. -/
def optTable : List (Str × Opt) := [
  (L!"replace_zero_spaces_with_hint", .b .replaceZeroSpacesWithHint),
  (L!"hint_after_multiline_comment", .s .hintAfterMultilineComment),
  (L!"hint_after_multiline_comment_text", .s .hintAfterMultilineCommentText),
  (L!"hint_before_comment", .s .hintBeforeComment),
  (L!"hint_before_multiline_comment_text", .s .hintBeforeMultilineCommentText),
  (L!"hint_before_oneline_comment_text", .s .hintBeforeOnelineCommentText),
  (L!"hint_table_constructor", .s .hintTableConstructor),
  (L!"remove_comments", .b .removeComments),
  (L!"remove_single_newlines", .b .removeSingleNewlines),
  (L!"remove_all_newlines", .b .removeAllNewlines),
  (L!"remove_spaces_between_tokens", .b .removeSpacesBetweenTokens),
  (L!"write_newline_at_eof", .b .writeNewlineAtEof),
  (L!"write_newline_at_multiline_table", .b .writeNewlineAtMultilineTable),
  (L!"write_newline_at_explist_multiline_table", .b .writeNewlineAtExplistMultilineTable),
  (L!"indentation_string", .s .indentationString),
  (L!"indent_var_suffix", .b .indentVarSuffix),
  (L!"indent_one_line_var_suffix", .b .indentOneLineVarSuffix),
  (L!"indent_exp_list", .b .indentExpList),
  (L!"indent_one_line_exp_list", .b .indentOneLineExpList),
  (L!"newline_format_first_oneline_comment", .n .newlineFormatFirstOnelineComment),
  (L!"newline_format_first_multiline_comment", .n .newlineFormatFirstMultilineComment),
  (L!"newline_format_oneline_comment", .n .newlineFormatOnelineComment),
  (L!"newline_format_multiline_comment", .n .newlineFormatMultilineComment),
  (L!"newline_format_statement", .n .newlineFormatStatement),
  (L!"newline_format_do_end", .n .newlineFormatDoEnd),
  (L!"newline_format_for", .n .newlineFormatFor),
  (L!"newline_format_function", .n .newlineFormatFunction),
  (L!"newline_format_if", .n .newlineFormatIf),
  (L!"newline_format_repeat_until", .n .newlineFormatRepeatUntil),
  (L!"newline_format_table_constructor", .n .newlineFormatTableConstructor),
  (L!"newline_format_table_field", .n .newlineFormatTableField),
  (L!"newline_format_while", .n .newlineFormatWhile),
  (L!"newline_format_binary_op", .n .newlineFormatBinaryOp),
  (L!"newline_format_var_suffix", .n .newlineFormatVarSuffix),
  (L!"newline_format_exp_list", .n .newlineFormatExpList),
  (L!"newline_format_exp_list_first", .n .newlineFormatExpListFirst),
  (L!"field_separator", .s .fieldSeparator),
  (L!"write_trailing_field_separator", .b .writeTrailingFieldSeparator),
  (L!"convert_charstring_to_normalstring", .b .convertCharstringToNormalstring),
  (L!"max_width", .n .maxWidth),
  (L!"force_single_line_binary_op", .b .forceSingleLineBinaryOp),
  (L!"force_single_line_table", .b .forceSingleLineTable),
  (L!"force_single_line_iv_table_field", .b .forceSingleLineIvTableField),
  (L!"force_single_line_kv_table_field", .b .forceSingleLineKvTableField),
  (L!"force_single_line_if", .b .forceSingleLineIf),
  (L!"force_single_line_top_level_function", .b .forceSingleLineTopLevelFunction),
  (L!"force_single_line_scoped_function", .b .forceSingleLineScopedFunction),
  (L!"force_single_line_var_suffix", .b .forceSingleLineVarSuffix),
  (L!"force_single_line_exp_list", .b .forceSingleLineExpList),
  (L!"line_range", .line)]

/-- `FormatOpts`, src/config.rs:39-102: one optional value per option, grouped by type. The Rust
struct has one field per option; a total function on the option names is the same data. -/
structure FormatOpts where
  bools : BOpt → Option Bool
  nums : NOpt → Option Nat
  strs : SOpt → Option Str

/-- `FormatOpts::default`, src/config.rs:104-168. -/
def FormatOpts.default : FormatOpts := ⟨fun _ => none, fun _ => none, fun _ => none⟩

/-- `Config`, src/config.rs:32-37. -/
structure Config where
  lineRange : Option (Nat × Nat)
  fmt : FormatOpts

/-- `Config::default`, src/config.rs:170-173. -/
def Config.default : Config := ⟨none, .default⟩

/-- `cfg.fmt.<bool option>`. -/
def Config.bool (c : Config) (o : BOpt) : Option Bool := c.fmt.bools o
/-- `cfg.fmt.<usize option>`. -/
def Config.num (c : Config) (o : NOpt) : Option Nat := c.fmt.nums o
/-- `cfg.fmt.<String option>`. -/
def Config.str (c : Config) (o : SOpt) : Option Str := c.fmt.strs o

/-- Assignment to a field. -/
def upd {α β : Type} [DecidableEq α] (f : α → β) (a : α) (v : β) : α → β :=
  fun x => if x = a then v else f x

def Config.setBool (c : Config) (o : BOpt) (v : Option Bool) : Config :=
  { c with fmt := { c.fmt with bools := upd c.fmt.bools o v } }
def Config.setNum (c : Config) (o : NOpt) (v : Option Nat) : Config :=
  { c with fmt := { c.fmt with nums := upd c.fmt.nums o v } }
def Config.setStr (c : Config) (o : SOpt) (v : Option Str) : Config :=
  { c with fmt := { c.fmt with strs := upd c.fmt.strs o v } }

/-- `has_empty_format`, src/config.rs:175-177: every option is unset. -/
def Config.hasEmptyFormat (c : Config) : Bool :=
  optTable.all fun p =>
    match p.2 with
    | .b o => (c.bool o).isNone
    | .n o => (c.num o).isNone
    | .s o => (c.str o).isNone
    | .line => true

/-- `str::parse::<bool>`. -/
def parseBool (s : Str) : Option Bool :=
  if s = L!"true" then some true else if s = L!"false" then some false else none

/-- Value of a digit. -/
def digitVal (c : Char) : Nat := c.toNat - 48

/-- Value of a digit string read after the value `acc`. -/
def digitsVal (acc : Nat) (s : Str) : Nat := s.foldl (fun acc d => 10 * acc + digitVal d) acc

/-- A non-empty string of ASCII digits whose value fits into 64 bits. -/
def parseDigits (s : Str) : Option Nat :=
  if s ≠ [] ∧ s.all isDigit = true ∧ digitsVal 0 s < 2 ^ 64 then some (digitsVal 0 s) else none

/-- `str::parse::<usize>` on a 64-bit platform: an optional `+`, then digits, no overflow. -/
def parseUsize (s : Str) : Option Nat :=
  match s with
  | [] => none
  | c :: r => if c = '+' then parseDigits r else parseDigits (c :: r)

/-- Split at the first occurrence of a character. -/
def splitAtChar (ch : Char) : Str → Option (Str × Str)
  | [] => none
  | c :: s => if c = ch then some ([], s) else (splitAtChar ch s).map fun p => (c :: p.1, p.2)

/-- The `line_range` arm, src/config.rs:189, 266-272: `^([0-9]+):([0-9]+)$` and both numbers fit. -/
def parseLineRange (s : Str) : Option (Nat × Nat) :=
  match splitAtChar ':' s with
  | none => none
  | some (a, b) =>
    match parseDigits a, parseDigits b with
    | some x, some y => some (x, y)
    | _, _ => none

/-- `Config::set`, src/config.rs:179-276. The messages on stderr are in
`Config.setMsg`. -/
def Config.set (c : Config) (name value : Str) : Config :=
  match optTable.lookup name with
  | none => c
  | some (.b o) =>
    match parseBool value with
    | some v => c.setBool o (some v)
    | none => c
  | some (.n o) =>
    match parseUsize value with
    | some v => c.setNum o (some v)
    | none => c
  | some (.s o) => c.setStr o (some value)
  | some .line =>
    match parseLineRange value with
    | some r => { c with lineRange := some r }
    | none => c

end Luafmt
