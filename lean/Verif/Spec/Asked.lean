import Verif.Spec.Lines
import Verif.Spec.Elements

/-
Specification of where line breaks are asked for: the places of a program where some option of the configuration asks
for a line break. Like `Verif.Spec.Lines`, which says where a line has to begin, this reads a program as its syntax tree
with the positions of its parts; nothing here refers to the printer.
-/
namespace Luafmt.Spec

/-- The position `p` of the text is the first one of its line that is not a space or a tab, and the line is not the
first one. -/
def BeginsLine (text : Str) (p : Nat) : Prop :=
  ∃ before blanks, text.take p = before ++ '\n' :: blanks ∧ ∀ x ∈ blanks, x = ' ' ∨ x = '\t'

/-- An option asks for a line break at the place number `g` of a construct: the option of the construct is set to 1, and
the place is one of those of `lineBreaks`; the place before the `return` behind statements, with
`newline_format_statement`; the place before the closing brace of a table, with `max_width`; the place before or behind
an operator, with `newline_format_binary_op` set to 1 or 2. -/
def PlaceAsks (c : Config) (tag : Tag) (g : Nat) : Prop :=
  (∃ o places d, lineBreaks tag = some (o, places) ∧ c.num o = some 1 ∧ (g, d) ∈ places) ∨
  (tag = .statsRetStat ∧ g = 0 ∧ c.num .newlineFormatStatement ≠ none) ∨
  ((∃ iv single, tag = .tableConstructor iv single) ∧ g = 1 ∧ c.num .maxWidth ≠ none) ∨
  ((∃ op, tag = .binaryOp op) ∧
    (g = 0 ∧ c.num .newlineFormatBinaryOp = some 1 ∨ g = 1 ∧ c.num .newlineFormatBinaryOp = some 2))

/-- An option asks for a line break before an item of a list (`first` tells whether it is the first one). -/
def ItemAsks (c : Config) (tag : Tag) (first : Bool) (item : Tag) : Prop :=
  match tag with
  | .statementList => first = false ∧ c.num .newlineFormatStatement ≠ none
  | .elseIfThenVec => first = false ∧ c.num .newlineFormatIf = some 1
  | .fields _ _ _ => c.num .newlineFormatTableField ≠ none
  | .expList _ => c.num (if first then .newlineFormatExpListFirst else .newlineFormatExpList) = some 1 ∨
      first = false ∧ (∃ iv single, item = .tableConstructor iv single) ∧
        c.bool .writeNewlineAtExplistMultilineTable = some true ∧ c.bool .writeNewlineAtMultilineTable = some false
  | .varSuffixList => c.num .newlineFormatVarSuffix ≠ none ∧ (item = .tableMember ∨ item = .fnMethodCall)
  | _ => False

/-- In the program `tree` an option asks for a line break before the position `p`. -/
def Asked (c : Config) (tree : Node) (p : Nat) : Prop :=
  ∃ tag span locs kids loc, Inside tree (.mk tag span locs kids) ∧ loc.r = p ∧
    ((∃ g, locs[g]? = some loc ∧ PlaceAsks c tag g) ∨
     ∃ i item, kids[i]? = some item ∧ locs[itemPlace tag i]? = some loc ∧ ItemAsks c tag (i == 0) item.tag)

/-- The options by which nothing but the asked line breaks is left: those of the source and all comments are removed,
and neither the options for comments nor the hints bring any in. -/
structure OnlyAsked (c : Config) : Prop where
  all : c.bool .removeAllNewlines = some true
  com : c.bool .removeComments = some true
  comments : ∀ o ∈ [NOpt.newlineFormatOnelineComment, .newlineFormatMultilineComment, .newlineFormatFirstOnelineComment,
    .newlineFormatFirstMultilineComment], c.num o ≠ some 1
  hint : ∀ o ∈ hintOptions, ∀ s, c.str o = some s → '\n' ∉ s

end Luafmt.Spec
