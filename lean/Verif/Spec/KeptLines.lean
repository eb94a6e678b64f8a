import Verif.Spec.Elements
import Verif.Spec.Options

/-
Line breaks of the source that the output keeps (C47).
-/
namespace Luafmt.Spec

/-- No option takes line breaks away: newlines and comments are kept, the text of long comments is not trimmed, and the
separators at the end of tables are left as they are (so that the tokens of the source and of the output are the same one
by one). There is no line range. -/
structure KeepsLines (c : Config) : Prop where
  range : c.lineRange = none
  all : c.bool .removeAllNewlines ≠ some true
  comments : c.bool .removeComments ≠ some true
  before : c.str .hintBeforeMultilineCommentText = none
  after : c.str .hintAfterMultilineCommentText = none
  trailing : c.bool .writeTrailingFieldSeparator = none
  table : c.bool .forceSingleLineTable ≠ some true

/-- In addition no option writes line breaks: no option asks for them (see `asksLines`), no `max_width`, no newline at the end or in tables, and no
hint with a newline. -/
structure SameLines (c : Config) : Prop extends KeepsLines c where
  num : ∀ o n, c.num o = some n → ¬ asksLines o n
  eof : c.bool .writeNewlineAtEof ≠ some true
  multiline : c.bool .writeNewlineAtMultilineTable ≠ some true
  args : c.bool .writeNewlineAtExplistMultilineTable ≠ some true
  hint : ∀ o ∈ hintOptions, ∀ s, c.str o = some s → '\n' ∉ s

/-- The number of line breaks. -/
def breaks (s : Str) : Nat := s.count '\n'

/-- `remove_single_newlines` is set and the text is a single newline, possibly with blanks around it. -/
def Lone (c : Config) (s : Str) : Prop :=
  c.bool .removeSingleNewlines = some true ∧ Blank s ∧ breaks s = 1

end Luafmt.Spec
