import Verif.Spec.Elements

/-
The blanks that the formatter puts between two tokens on one line (C42), stated for pairs of tokens.
-/
namespace Luafmt.Spec

/-- Operators that stand between two operands and nowhere else (`-` and `~` may also stand before one). -/
def isInfix : Token → Bool
  | .opExponentiation | .opMultiplication | .opDivision | .opFloorDivision | .opModulo | .opAddition | .opConcatenation
  | .opLeftShift | .opRightShift | .opBitwiseAnd | .opBitwiseOr | .opEquality | .opInequality | .opLessThan
  | .opGreaterThan | .opLessOrEqual | .opGreaterOrEqual | .opLogicalAnd | .opLogicalOr => true
  | _ => false

/-- Keywords after which something else follows. -/
def isOpening : Token → Bool
  | .kwIf | .kwThen | .kwElseIf | .kwElse | .kwWhile | .kwDo | .kwFor | .kwIn | .kwRepeat | .kwUntil | .kwLocal
  | .kwGoto | .opLogicalNot => true
  | _ => false

/-- Keywords that begin a statement or continue one. -/
def isWord : Token → Bool
  | .kwIf | .kwThen | .kwElseIf | .kwElse | .kwEnd | .kwWhile | .kwDo | .kwFor | .kwIn | .kwRepeat | .kwUntil | .kwLocal
  | .kwGoto | .kwBreak | .kwReturn => true
  | _ => false

/-- Names and numerals. -/
def isAtom : Token → Bool
  | .variable _ | .numeral _ => true
  | _ => false

/-- The blanks between two tokens, where the tokens alone decide it: one blank after a comma, none before it; none inside
parentheses and square brackets; none around `.` and `:`, none after `#`; one around `=`, around the operators with two
operands and before a `-` or `~` that is not behind an opening bracket; one after and before the keywords of a statement;
none between `function` and its parameters; one behind a semicolon that is not followed by another; none before an index; one between two names. -/
def spacing (p t : Token) : Option Str :=
  if t = .comma then some []
  else if p = .comma then some [' ']
  else if p = .openRound ∨ t = .closeRound ∨ p = .openSquare ∨ t = .closeSquare then some []
  else if p = .period ∨ t = .period ∨ p = .colon ∨ t = .colon ∨ p = .opLength then some []
  else if p = .equalsSign ∨ t = .equalsSign ∨ isInfix p ∨ isInfix t ∨ t = .minus ∨ t = .tilde then some [' ']
  else if isOpening p ∨ isWord t then some [' ']
  else if p = .kwFunction then some (if t = .openRound then [] else [' '])
  else if p = .semicolon then (if t = .semicolon then none else some [' '])
  else if p = .kwReturn then some (if t = .semicolon then [] else [' '])
  else if t = .openSquare then some []
  else if isAtom p ∧ isAtom t then some [' ']
  else none

/-- The hint inside the braces of a table. -/
def braces (c : Config) : Str := (c.str .hintTableConstructor).getD []

/-- `K` may stand between the tokens `p` and `t`: behind `{` and before `}` the hint of tables; elsewhere the blanks of
`spacing`, and at most one blank where the tokens do not decide it. Before `{` the hint of tables may follow. -/
def Between (c : Config) (p t : Token) (K : Str) : Prop :=
  ∃ b, (if p = .openCurly ∨ t = .closeCurly then b = braces c
      else match spacing p t with
        | some w => b = w
        | none => b = [] ∨ b = [' ']) ∧
    (K = b ∨ t = .openCurly ∧ K = b ++ braces c)

/-- The hint between a token and a comment behind it. -/
def beforeComment (c : Config) : Str := (c.str .hintBeforeComment).getD []

/-- The hint between a long comment and what follows on its line. -/
def afterComment (c : Config) : Str := (c.str .hintAfterMultilineComment).getD []

/-- Where the text `K` before the token `t` ends with a long comment and what stands behind it on its line, this is the hint
for it; before a brace the hint of tables may follow. (The last `]` of `K`, with no newline behind it, is the end of a long
comment.) -/
def AfterLong (c : Config) (t : Token) (K : Str) : Prop :=
  ∀ a b, K = a ++ ']' :: b → ']' ∉ b → '\n' ∉ b →
    b = afterComment c ∨ (t = .openCurly ∨ t = .closeCurly) ∧ b = afterComment c ++ braces c

/-- What stands behind a token: only blanks, or a newline comes next, or a comment behind its hint. -/
def Next (c : Config) (K : Str) : Prop :=
  ('\n' ∉ K ∧ '-' ∉ K) ∨ K.head? = some '\n' ∨ ∃ k, K = beforeComment c ++ '-' :: k

/-- The hint of tables is at most one blank. -/
def Narrow (c : Config) : Prop := braces c = [] ∨ braces c = [' ']

/-- Blanks are set by the formatter alone: those of the source are removed, missing ones are added, there is no line range,
and comments that are removed leave no hint behind. -/
structure Regular (c : Config) : Prop where
  range : c.lineRange = none
  spaces : c.bool .removeSpacesBetweenTokens = some true
  zero : c.bool .replaceZeroSpacesWithHint = some true
  comment : c.bool .removeComments = some true → (c.str .hintBeforeComment).getD [] = []

end Luafmt.Spec
