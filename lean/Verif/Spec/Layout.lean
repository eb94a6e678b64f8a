import Verif.Spec.Elements

/-
When two sources differ in their layout only, and the options under which the layout of the source leaves no trace in
the output. The tokens and their positions are those of the lexer, for which see C24.
-/
namespace Luafmt.Spec

/-- `Reading es s pos toks`: the text `s`, which starts at position `pos` and has the tokens `toks`, consists of the
elements `es`: between the tokens there are comments and blanks. -/
def Reading : List Elem → Str → Nat → List TokL → Prop
  | _, _, _, [] => False
  | es, s, pos, t :: ts =>
    (t.tok = .eof ∧ ts = [] ∧ (∀ e ∈ es, e.isComment = true) ∧ Text es (s ++ ['\n']) ∧ t.l = pos + s.length) ∨
    (∃ cs g u s' es', t.tok ≠ .eof ∧ es = cs ++ .tok t.tok :: es' ∧ s = g ++ (u ++ s') ∧
      (∀ e ∈ cs, e.isComment = true) ∧ Text cs g ∧ t.l = pos + g.length ∧ t.r = t.l + u.length ∧ Reading es' s' t.r ts)

/-- The source has these tokens and comments. -/
def ElementsOf (src : Str) (es : List Elem) : Prop := ∃ toks, lexLua src = some toks ∧ Reading es src 0 toks

/-- No option makes the program test whether a construct of the source fits on a line. (These tests look at the
positions in the source.) -/
structure NoOneLine (c : Config) : Prop where
  table : c.bool .forceSingleLineTable ≠ some true
  width : c.num .maxWidth = none ∨ (c.bool .forceSingleLineIf ≠ some true ∧
    c.bool .forceSingleLineTopLevelFunction ≠ some true ∧ c.bool .forceSingleLineScopedFunction ≠ some true ∧
    c.bool .forceSingleLineIvTableField ≠ some true ∧ c.bool .forceSingleLineKvTableField ≠ some true)

/-- Blanks and newlines between tokens are removed; no range is selected and no one-line test takes place. -/
structure Relaid (c : Config) : Prop where
  spaces : c.bool .removeSpacesBetweenTokens = some true
  lines : c.bool .removeAllNewlines = some true
  range : c.lineRange = none
  tests : NoOneLine c

/-- It makes no difference whether a comment is the first one of a gap. -/
structure FirstAlike (c : Config) : Prop where
  line : c.num .newlineFormatFirstOnelineComment = some 1 ↔ c.num .newlineFormatOnelineComment = some 1
  long : c.num .newlineFormatFirstMultilineComment = some 1 ↔ c.num .newlineFormatMultilineComment = some 1

/-- It makes no difference whether a comment is the first one of a gap, or the first one behind a newline. -/
structure PlainComments (c : Config) : Prop extends FirstAlike c where
  hint : (c.str .hintBeforeComment).getD [] = []

/-- No comment follows another one without a token between them. -/
def LoneComments (es : List Elem) : Prop :=
  ∀ as bs : List Elem, ∀ e e' : Elem, es = as ++ e :: e' :: bs → ¬(e.isComment = true ∧ e'.isComment = true)

/-- The lines on which the comments of the source stand make no difference: there are no comments; or it makes no
difference whether a comment is the first one of a gap, and `hint_before_comment` is empty or there are no two comments
in a gap. -/
def CommentsFit (c : Config) (es : List Elem) : Prop :=
  commentsOf es = [] ∨ (FirstAlike c ∧ ((c.str .hintBeforeComment).getD [] = [] ∨ LoneComments es))

/-- Comments are removed and no newline is written for them. -/
structure NoTrace (c : Config) : Prop extends PlainComments c where
  comments : c.bool .removeComments = some true
  noLine : c.num .newlineFormatOnelineComment ≠ some 1
  noLong : c.num .newlineFormatMultilineComment ≠ some 1

end Luafmt.Spec
