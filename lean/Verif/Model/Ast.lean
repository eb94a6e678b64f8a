import Verif.Model.Basic

/-
Model of the syntax tree of src/parser/lua_ast.rs.

Every Rust constructor has the form `Tag(span, [gaps], data, children..)`. The model keeps exactly
these parts but in one uniform constructor: a tag (with the constructor's own data), the span, the
recorded gaps between consecutive parts, and the children in source order.
-/
namespace Luafmt

/-- The constructors of `Node`, src/parser/lua_ast.rs:41-133, with the data that is neither a
position nor a child. `isIv`/`isSingle` are the fields of `TableConstructorOpts`/`FieldsOpts`
(lua_ast.rs:14-38) that reconstruction fills in; the two `Cell` fields live in the writer state.
The separators of a separated list are `seps` (one per item, empty if there is none). -/
inductive Tag where
  | binaryOp (op : Str)
  | unaryOp (op : Str)
  | unaryNot
  | var
  | roundBrackets
  | argsRoundBrackets
  | argsRoundBracketsEmpty
  | nil_
  | false_
  | true_
  | varArg
  | break_
  | numeral (s : Str)
  | normalStringLiteral (s : Str)
  | charStringLiteral (s : Str)
  | multiLineStringLiteral (level : Nat) (s : Str)
  | tableConstructor (isIv isSingle : Option Bool)
  | tableConstructorEmpty
  | fields (seps : List Str) (isIv isSingle : Option Bool)
  | fieldNamedBracket
  | fieldNamed
  | fieldSequential
  | tableIndex
  | tableMember
  | expList (seps : List Str)
  | nameList (seps : List Str)
  | parList (seps : List Str)
  | varList (seps : List Str)
  | varRoundSuffix
  | varSuffixList
  | fnMethodCall
  | functionDef
  | funcBody
  | funcBodyB
  | funcPBody
  | funcPBodyB
  | funcName (seps : List Str)
  | funcNameSelf
  | funcDecl
  | localFuncDecl
  | statementList
  | doEnd
  | doBEnd
  | varsExprs
  | name (s : Str)
  | label
  | goTo
  | whileDo
  | whileDoB
  | repeatUntil
  | repeatBUntil
  | forInt
  | forIntB
  | forIntStep
  | forIntStepB
  | forRange
  | forRangeB
  | localNames
  | localNamesExprs
  | ifThen
  | ifThenB
  | ifThenElse
  | ifThenBElse
  | ifThenElseB
  | ifThenBElseB
  | ifThenElseIf
  | ifThenBElseIf
  | ifThenElseIfElse
  | ifThenBElseIfElse
  | ifThenElseIfElseB
  | ifThenBElseIfElseB
  | elseIfThenVec
  | elseIfThen
  | elseIfThenB
  | retStatNone
  | retStatExpr
  | retStatNoneComma
  | retStatExprComma
  | statsRetStat
  | chunk
  | sheBangChunk
  | semicolon
  | sheBang (s : Str)
  | funcNameItems (seps : List Str)
  deriving DecidableEq, Repr

/-- `Node`, src/parser/lua_ast.rs:41-133.

Encoding of lists: for `Vec<(Loc, Node)>` `locs` has the gap before each item. For
`Vec<(Loc, Node, Loc, String)>` `locs` has, per item, the gap before it and the gap between it and
its separator; the separator texts are in the tag. `Chunk(locl, n, locr)` has `span = locl` and
`locs = [locl, locr]`, `SheBangChunk` accordingly. `FuncNameSelf(span, locs, v, n)` has as first
child the list `v`, as a pseudo node `funcNameItems` (not a Rust constructor) that is written by
`cfg_write_sep_list` without a range test. -/
inductive Node where
  | mk (tag : Tag) (span : Loc) (locs : List Loc) (kids : List Node)
  deriving Repr

namespace Node
def tag : Node → Tag | mk t _ _ _ => t
def span : Node → Loc | mk _ s _ _ => s
def locs : Node → List Loc | mk _ _ l _ => l
def kids : Node → List Node | mk _ _ _ k => k
end Node

end Luafmt
