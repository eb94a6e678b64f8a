import Verif.Spec.Spacing
import Verif.Spec.Lines

/-
Comments on lines of their own (C46).
-/
namespace Luafmt.Spec

/-- All comments are to be put on lines of their own: the four options for it are set, and there is no line range. -/
structure CommentLines (c : Config) : Prop where
  range : c.lineRange = none
  oneline : c.num .newlineFormatOnelineComment = some 1
  multiline : c.num .newlineFormatMultilineComment = some 1
  firstOneline : c.num .newlineFormatFirstOnelineComment = some 1
  firstMultiline : c.num .newlineFormatFirstMultilineComment = some 1

/-- The text ends at the beginning of a line, behind some levels of indentation or behind the hint before comments. -/
def AtLine (c : Config) (s : Str) : Prop :=
  ∃ u w, s = u ++ '\n' :: w ∧ ((∃ k, w = indentation c k) ∨ w = beforeComment c)

/-- The hints that may stand at the beginning of a line have no newline, and the hint of tables is at most one blank. -/
structure LineHints (c : Config) : Prop where
  narrow : Narrow c
  indent : '\n' ∉ (c.str .indentationString).getD []
  after : '\n' ∉ afterComment c

/-- Where the text `K` before the token `t` has a newline and `t` is the first token or comment of its line, the blanks before
`t` on this line are some levels of indentation; before a brace the hint of tables may follow. (A `]` behind the last newline
would be the end of a long comment.) -/
def Indented (c : Config) (t : Token) (K : Str) : Prop :=
  ∀ a b, K = a ++ '\n' :: b → '\n' ∉ b → ']' ∉ b →
    ∃ k, b = indentation c k ∨ (t = .openCurly ∨ t = .closeCurly) ∧ b = indentation c k ++ braces c

end Luafmt.Spec
