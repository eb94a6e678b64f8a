import Verif.Model.Ast
import Verif.Model.Config

/-
Specification of the line structure of the output: which parts of a program begin a line, and behind how many levels
of indentation. A program is read as its syntax tree with the positions of its parts in the text; nothing here refers
to the printer.

Positions: in a node `.mk tag span locs kids` the list `locs` has the places between consecutive parts (tokens and
children) of the construct, so `locs[g].r` is the position where the part behind the place number `g` begins. Lists
of statements, of `elseif` clauses and of suffixes have one more entry at the beginning, so `locs[i].r` is where the item
number `i` begins. Lists with separators have two places for each item, one before it and one behind it, so there
`locs[2 * i].r` is where the item number `i` begins.
-/
namespace Luafmt.Spec

/-- The text of `k` levels of indentation. -/
def indentation (c : Config) : Nat → Str
  | 0 => []
  | k + 1 => (c.str .indentationString).getD [] ++ indentation c k

/-- In `text` the position `p` is behind the indentation of a line that is indented by `k` levels. (Before the brace of a
table there may be the text of `hint_table_constructor` as well.) -/
def LineStart (c : Config) (text : Str) (p k : Nat) : Prop :=
  ∃ before, text.take p = before ++ '\n' :: indentation c k ∨
    text[p]? = some '{' ∧ text.take p = before ++ '\n' :: indentation c k ++ (c.str .hintTableConstructor).getD []

/-- The option that asks for line breaks in a construct, and the places behind which a line begins, with the number of
levels it is indented relative to the construct: bodies one level deeper, the closing words on the level of the
construct. (Two places are missing, in the code as here: with an empty body the `end` of a numeric `for` without step
and the `else` behind an empty `then` part.) -/
def lineBreaks : Tag → Option (NOpt × List (Nat × Nat))
  | .doBEnd => some (.newlineFormatDoEnd, [(0, 1), (1, 0)])
  | .funcBody => some (.newlineFormatFunction, [(1, 0)])
  | .funcBodyB => some (.newlineFormatFunction, [(1, 1), (2, 0)])
  | .funcPBody => some (.newlineFormatFunction, [(2, 0)])
  | .funcPBodyB => some (.newlineFormatFunction, [(2, 1), (3, 0)])
  | .ifThen => some (.newlineFormatIf, [(2, 0)])
  | .ifThenB => some (.newlineFormatIf, [(2, 1), (3, 0)])
  | .ifThenElse => some (.newlineFormatIf, [(3, 0)])
  | .ifThenBElse => some (.newlineFormatIf, [(2, 1), (3, 0), (4, 0)])
  | .ifThenElseB => some (.newlineFormatIf, [(3, 1), (4, 0)])
  | .ifThenBElseB => some (.newlineFormatIf, [(2, 1), (3, 0), (4, 1), (5, 0)])
  | .ifThenElseIf => some (.newlineFormatIf, [(2, 0), (3, 0)])
  | .ifThenBElseIf => some (.newlineFormatIf, [(2, 1), (3, 0), (4, 0)])
  | .ifThenElseIfElse => some (.newlineFormatIf, [(2, 0), (3, 0), (4, 0)])
  | .ifThenBElseIfElse => some (.newlineFormatIf, [(2, 1), (3, 0), (4, 0), (5, 0)])
  | .ifThenElseIfElseB => some (.newlineFormatIf, [(2, 0), (3, 0), (4, 1), (5, 0)])
  | .ifThenBElseIfElseB => some (.newlineFormatIf, [(2, 1), (3, 0), (4, 0), (5, 1), (6, 0)])
  | .elseIfThenB => some (.newlineFormatIf, [(2, 1)])
  | .whileDo => some (.newlineFormatWhile, [(2, 0)])
  | .whileDoB => some (.newlineFormatWhile, [(2, 1), (3, 0)])
  | .repeatUntil => some (.newlineFormatRepeatUntil, [(0, 0)])
  | .repeatBUntil => some (.newlineFormatRepeatUntil, [(0, 1), (1, 0)])
  | .forIntB => some (.newlineFormatFor, [(6, 1), (7, 0)])
  | .forIntStep => some (.newlineFormatFor, [(8, 0)])
  | .forIntStepB => some (.newlineFormatFor, [(8, 1), (9, 0)])
  | .forRange => some (.newlineFormatFor, [(4, 0)])
  | .forRangeB => some (.newlineFormatFor, [(4, 1), (5, 0)])
  | .tableConstructor _ _ => some (.newlineFormatTableConstructor, [(1, 0)])
  | _ => none

/-- The fields of a table are all without a key. -/
def valuesOnly : List Node → Bool
  | [.mk _ _ _ fields] => fields.all fun f => decide (f.tag = .fieldSequential)
  | _ => false

/-- Behind the place number `g` of a construct a line begins, `d` levels deeper than the construct: the places of
`lineBreaks` if the option for them is set to 1 and not among the overruled ones, `over`; with `newline_format_statement`
the `return` behind statements. (Nothing is said of the closing brace of a table without keys if
`force_single_line_table` is set.) -/
def Breaks.At (c : Config) (over : List NOpt) (tag : Tag) (kids : List Node) (g d : Nat) : Prop :=
  (∃ o places, lineBreaks tag = some (o, places) ∧ c.num o = some 1 ∧ o ∉ over ∧ (g, d) ∈ places ∧
    (o = .newlineFormatTableConstructor → c.bool .forceSingleLineTable = some true → valuesOnly kids = false)) ∨
  (tag = .statsRetStat ∧ c.num .newlineFormatStatement ≠ none ∧ g = 0 ∧ d = 0)

/-- The options that are overruled inside a construct that is put on one line; none if no option allows to do so. With
`max_width` and `force_single_line_if` an `if` statement may be put on one line, with `force_single_line_table` a table,
with `force_single_line_top_level_function` a function that is not nested, with `force_single_line_scoped_function` a
nested one (`inner`). -/
def overruled (c : Config) (inner : Bool) (tag : Tag) : List NOpt :=
  if c.num .maxWidth = none then [] else
    match tag with
    | .ifThen | .ifThenB | .ifThenElse | .ifThenBElse | .ifThenElseB | .ifThenBElseB | .ifThenElseIf | .ifThenBElseIf
    | .ifThenElseIfElse | .ifThenBElseIfElse | .ifThenElseIfElseB | .ifThenBElseIfElseB =>
      if c.bool .forceSingleLineIf = some true then [.newlineFormatIf] else []
    | .funcBody | .funcBodyB | .funcPBody | .funcPBodyB =>
      if c.bool (if inner then .forceSingleLineScopedFunction else .forceSingleLineTopLevelFunction) = some true then
        [.newlineFormatFunction] else []
    | .tableConstructor _ _ =>
      if c.bool .forceSingleLineTable = some true then [.newlineFormatTableConstructor, .newlineFormatTableField] else []
    | _ => []

/-- Functions in these children count as nested: in the body of a function and in the fields of a table. -/
def nests (tag : Tag) (i : Nat) : Bool :=
  match tag with
  | .funcBodyB | .tableConstructor _ _ => i == 0
  | .funcPBodyB => i == 1
  | _ => false

/-- The text between two positions is on one line, which is shorter than `max_width` there. -/
def OnOneLine (c : Config) (text : Str) (span : Loc) : Prop :=
  '\n' ∉ (text.take span.r).drop span.l ∧
    ∃ width, c.num .maxWidth = some width ∧ ((text.take span.r).reverse.takeWhile (· != '\n')).length < width

/-- Does an expression, or a field of a table, begin with the brace of a table that is not empty, and if so: is that table
an operand of an operation that begins there too? -/
def tableStart : Node → Option Bool
  | .mk (.tableConstructor _ _) _ _ _ => some false
  | .mk (.binaryOp _) _ _ (n :: _) => (tableStart n).map fun _ => true
  | .mk .fieldSequential _ _ (n :: _) => tableStart n
  | _ => none

/-- The expression or field does not begin with the first operand of an operation that is a table whose brace
`write_newline_at_multiline_table` may put on a line of its own. (Such a brace is on the level of the operation, so nothing
is said about it here.) -/
def BraceStays (c : Config) (n : Node) : Prop :=
  tableStart n = some true → c.bool .writeNewlineAtMultilineTable ≠ some true

/-- An item of a list begins a line (`first` tells whether it is the first one): with `newline_format_statement` every
statement but the first, with `newline_format_if` every later `elseif`, with `newline_format_table_field` every field of
a table, with `newline_format_exp_list_first` and `newline_format_exp_list` set to 1 the first and the later expressions
of a list, with `write_newline_at_explist_multiline_table` (and `write_newline_at_multiline_table` set to false, and one of
the options for lists of expressions set) the later tables of such a list, with `newline_format_var_suffix` every member
access and every method call of a chain; unless an option may put it on the line before, or the option is among the
overruled ones. -/
def ItemBreaks (c : Config) (over : List NOpt) (tag : Tag) (first : Bool) (n : Node) : Prop :=
  match tag with
  | .statementList => first = false ∧ c.num .newlineFormatStatement ≠ none
  | .elseIfThenVec => first = false ∧ c.num .newlineFormatIf = some 1 ∧ .newlineFormatIf ∉ over
  | .fields _ _ _ => c.num .newlineFormatTableField ≠ none ∧ .newlineFormatTableField ∉ over ∧
      c.bool .forceSingleLineIvTableField ≠ some true ∧ c.bool .forceSingleLineKvTableField ≠ some true ∧
      BraceStays c n
  | .expList _ => c.num (if first then .newlineFormatExpListFirst else .newlineFormatExpList) = some 1 ∧
      c.bool .forceSingleLineExpList ≠ some true ∧ BraceStays c n ∨
      first = false ∧ (∃ a b, n.tag = .tableConstructor a b) ∧ c.bool .writeNewlineAtExplistMultilineTable = some true ∧
      c.bool .writeNewlineAtMultilineTable = some false ∧ c.bool .forceSingleLineTable ≠ some true ∧
      (c.num .newlineFormatExpList ≠ none ∨ c.num .newlineFormatExpListFirst ≠ none)
  | .varSuffixList => c.num .newlineFormatVarSuffix ≠ none ∧ c.bool .forceSingleLineVarSuffix ≠ some true ∧
      (n.tag = .tableMember ∨ n.tag = .fnMethodCall)
  | _ => False

/-- The number of the place before the item number `i`. -/
def itemPlace (tag : Tag) (i : Nat) : Nat :=
  match tag with
  | .statementList | .elseIfThenVec | .varSuffixList => i
  | _ => 2 * i

/-- In an operation with two operands a line begins behind the place number `g`: with `newline_format_binary_op` set to
1 before the operator, set to 2 before the second operand. -/
def OperatorBreaks (c : Config) (kids : List Node) (g : Nat) : Prop :=
  c.bool .forceSingleLineBinaryOp ≠ some true ∧
    (g = 0 ∧ c.num .newlineFormatBinaryOp = some 1 ∨
     g = 1 ∧ c.num .newlineFormatBinaryOp = some 2 ∧ ∀ n, kids[1]? = some n → BraceStays c n)

/-- The brace of a table that is not empty begins a line: with `write_newline_at_multiline_table`, unless tables may be put
on one line or the table is inside a construct that is on one line. -/
def BraceBreaks (c : Config) (over : List NOpt) (tag : Tag) : Prop :=
  over = [] ∧ (∃ a b, tag = .tableConstructor a b) ∧ c.bool .writeNewlineAtMultilineTable = some true ∧
    c.bool .forceSingleLineTable ≠ some true

/-- The children that are one level deeper than the construct: bodies, parameters and the fields of a table. -/
def bodies : Tag → List Nat
  | .doBEnd | .funcBodyB | .funcPBody | .repeatBUntil | .tableConstructor _ _ => [0]
  | .funcPBodyB => [0, 1]
  | .ifThenB | .ifThenBElse | .ifThenElseB | .ifThenBElseIf | .ifThenBElseIfElse | .elseIfThenB | .whileDoB => [1]
  | .ifThenBElseB => [1, 2]
  | .ifThenElseIfElseB => [2]
  | .ifThenBElseIfElseB => [1, 3]
  | .forIntB => [3]
  | .forIntStepB => [4]
  | .forRangeB => [2]
  | _ => []

/-- The level of the parts of an operation relative to its own: one, or zero if it is an operand of an operation with
the same operator on the same level. `o` is the operator of the operation whose level this is, if there is one. -/
def operatorDepth (o : Option Str) (op : Str) : Nat := if o = some op then 0 else 1

/-- The children that are lists of expressions or chains of suffixes. -/
def listKids : Tag → List Nat
  | .var | .varRoundSuffix | .varsExprs | .localNamesExprs | .forRange | .forRangeB => [1]
  | .argsRoundBrackets | .retStatExpr | .retStatExprComma => [0]
  | _ => []

/-- Lists of expressions (chains of suffixes) that have to be indented: with the option for that, if an item begins a
line, and with the option for lists on one line in any case. -/
def HasIndent (c : Config) : Node → Prop
  | .mk tag _ _ kids =>
    match tag with
    | .expList _ => c.bool .indentExpList = some true ∧ (c.bool .indentOneLineExpList = some true ∧ kids ≠ [] ∨
        ∃ (i : Nat) (n : Node), kids[i]? = some n ∧ ItemBreaks c [] tag (i == 0) n)
    | .varSuffixList => c.bool .indentVarSuffix = some true ∧ (c.bool .indentOneLineVarSuffix = some true ∧ kids ≠ [] ∨
        ∃ (i : Nat) (n : Node), kids[i]? = some n ∧ ItemBreaks c [] tag (i == 0) n)
    | _ => False

/-- The child number `i`, `kid`, is `d` levels deeper than the construct with the tag `tag`, and its level
is that of the operands of `o'`, if that of the construct is that of the operands of `o`. The operands of an operation are
indented, but not again inside an operation with the same operator. Lists of expressions and chains of suffixes are
indented if they have to be, and only with the options for that; tables that may be put on one line may be not indented. All other children
are on the level of the construct, except those of `bodies`. -/
def Depth (c : Config) (o : Option Str) (tag : Tag) (i : Nat) (kid : Node) (d : Nat) (o' : Option Str) : Prop :=
  match tag with
  | .binaryOp op => d = operatorDepth o op ∧ o' = some op
  | _ =>
    (o' = if d = 0 then o else none) ∧
    if i ∈ bodies tag then
      d = 1 ∨ d = 0 ∧ c.bool .forceSingleLineTable = some true ∧ ∃ a b, tag = .tableConstructor a b
    else
      d = 0 ∧ (i ∈ listKids tag → ¬ HasIndent c kid) ∨
      d = 1 ∧ (((∃ s, kid.tag = .expList s) ∧ c.bool .indentExpList = some true) ∨
        (kid.tag = .varSuffixList ∧ c.bool .indentVarSuffix = some true))

mutual
/-- The places of a construct on level `k` where a line has to begin do begin one (`P` tells the positions that begin a
line and their levels), and so inside its children. `o` is the operator whose operands are on this level, if there is
one: the level of an operation depends on it. `inner` tells that functions here are nested ones. `over` are the options that are overruled because the construct is inside
of one that is on one line. Where that is allowed, the construct itself may be on one line (`Q`); then the options for
that are overruled in it. -/
def Landmarks (c : Config) (P : Nat → Nat → Prop) (Q : Node → Prop) (k : Nat) (o : Option Str) (inner : Bool)
    (over : List NOpt) : Node → Prop
  | .mk tag span locs kids => ∃ over',
    (over' = over ∨ overruled c inner tag ≠ [] ∧ over' = overruled c inner tag ++ over ∧
      (over = [] → Q (.mk tag span locs kids))) ∧
    (∀ g d loc, Breaks.At c over' tag kids g d → locs[g]? = some loc → P loc.r (k + d)) ∧
    (∀ i n loc, kids[i]? = some n → ItemBreaks c over' tag (i == 0) n → locs[itemPlace tag i]? = some loc → P loc.r k) ∧
    (∀ g op loc, tag = .binaryOp op → OperatorBreaks c kids g → locs[g]? = some loc →
      P loc.r (k + operatorDepth o op)) ∧
    (BraceBreaks c over' tag → P span.l k) ∧
    LandmarksAll c P Q k o inner over' tag 0 kids
/-- The same for the children from number `i` on. -/
def LandmarksAll (c : Config) (P : Nat → Nat → Prop) (Q : Node → Prop) (k : Nat) (o : Option Str) (inner : Bool)
    (over : List NOpt) (tag : Tag) (i : Nat) : List Node → Prop
  | [] => True
  | n :: ns => (∃ d o', Depth c o tag i n d o' ∧ Landmarks c P Q (k + d) o' (inner || nests tag i) over n) ∧
      LandmarksAll c P Q k o inner over tag (i + 1) ns
end

/-- `m` is `n` or a construct inside it. -/
inductive Inside : Node → Node → Prop
  | refl {n : Node} : Inside n n
  | kid {tag : Tag} {span : Loc} {locs : List Loc} {kids : List Node} {n m : Node} :
    n ∈ kids → Inside n m → Inside (.mk tag span locs kids) m

/-- `m` is `n` or a construct inside it; `b` and `b'` tell whether functions at `n` and at `m` are nested ones. -/
inductive Found : Bool → Node → Bool → Node → Prop
  | refl {b : Bool} {n : Node} : Found b n b n
  | kid {b b' : Bool} {tag : Tag} {span : Loc} {locs : List Loc} {kids : List Node} {i : Nat} {n m : Node} :
    kids[i]? = some n → Found (b || nests tag i) n b' m → Found b (.mk tag span locs kids) b' m

end Luafmt.Spec
