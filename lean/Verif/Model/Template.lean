import Verif.Model.Ast
import Verif.Model.Config

/-
The printing templates of `Node::configured_write` (src/parser/lua_ast.rs:479-1219) as data: what an
arm passes to `out_of_range_write!` and what it passes to `cfg_write!`. They are executed in
`Verif.Model.Write`. Arms that are not a fixed sequence (binary operations, tables, lists) are
written out there.
-/
namespace Luafmt

/-- An argument of `out_of_range_write!`: a literal, `locs[i]`, or a child. -/
inductive Sh where
  | lit (s : Str)
  | gap (i : Nat)
  | kid (i : Nat)
  deriving DecidableEq, Repr

/-- An argument of `cfg_write!`: a literal, `Hint(&locs[i], h)`, `IfNewLine(b, Hint(&locs[i], h))`,
a child, and the indentation commands. -/
inductive El where
  | lit (s : Str)
  | hint (i : Nat) (h : Str)
  | nl (b : Bool) (i : Nat) (h : Str)
  | kid (i : Nat)
  | inc | dec | incF | decF
  deriving DecidableEq, Repr

/-- A step of an arm: one argument, or the idiom
`let ind = child.test_indent(.., Hint(&locs[i], h)) == Ok(true);`
`cfg_write!(.., If(ind, &IncIndent(None)), body.., If(ind, &DecIndent()))`. -/
inductive Fm where
  | el (e : El)
  | ind (k i : Nat) (h : Str) (body : List El)
  deriving DecidableEq, Repr

/-- Abbreviation used in the tables. -/
instance : Coe El Fm := ⟨Fm.el⟩

/-- Arms that only write a text, src/parser/lua_ast.rs:546-559, 1041, 1173, 1216-1217. -/
def Tag.leafText : Tag → Option Str
  | .nil_ => some L!"nil"
  | .false_ => some L!"false"
  | .true_ => some L!"true"
  | .varArg => some L!"..."
  | .break_ => some L!"break"
  | .numeral s => some s
  | .normalStringLiteral s => some (['"'] ++ s ++ ['"'])
  | .charStringLiteral s => some (['\''] ++ s ++ ['\''])
  | .multiLineStringLiteral level s =>
    let e := List.replicate level '='
    some (['['] ++ e ++ ['['] ++ s ++ [']'] ++ e ++ [']'])
  | .name s => some s
  | .retStatNone => some L!"return"
  | .semicolon => some L!";"
  | .sheBang s => some (s ++ ['\n'])
  | _ => none

/-- The arguments of `out_of_range_write!`; `none` for arms that use `out_of_range_only_write!` or
no range test. The comment of each row gives the lines of the arm in src/parser/lua_ast.rs. -/
def Tag.shape : Tag → Option (List Sh)
  -- 489-506
  | .binaryOp op =>
    some [.kid 0, .gap 0, .lit op, .gap 1, .kid 1]
  -- 507-511
  | .unaryOp op =>
    some [.lit op, .gap 0, .kid 0]
  -- 512-516
  | .unaryNot =>
    some [.lit L!"not", .gap 0, .kid 0]
  -- 518-524
  | .var =>
    some [.kid 0, .gap 0, .kid 1]
  -- 525-530
  | .roundBrackets =>
    some [.lit L!"(", .gap 0, .kid 0, .gap 1, .lit L!")"]
  -- 531-540
  | .argsRoundBrackets =>
    some [.lit L!"(", .gap 0, .kid 0, .gap 1, .lit L!")"]
  -- 541-544
  | .argsRoundBracketsEmpty =>
    some [.lit L!"(", .gap 0, .lit L!")"]
  -- 561-608
  | .tableConstructor _ _ =>
    some [.lit L!"{", .gap 0, .kid 0, .gap 1, .lit L!"}"]
  -- 609-621
  | .tableConstructorEmpty =>
    some [.lit L!"{", .gap 0, .lit L!"}"]
  -- 628-635
  | .fieldNamedBracket =>
    some [.lit L!"[", .gap 0, .kid 0, .gap 1, .lit L!"]", .gap 2, .lit L!"=", .gap 3, .kid 1]
  -- 636-639
  | .fieldNamed =>
    some [.kid 0, .gap 0, .lit L!"=", .gap 1, .kid 1]
  -- 640-643
  | .fieldSequential =>
    some [.kid 0]
  -- 645-648
  | .tableIndex =>
    some [.lit L!"[", .gap 0, .kid 0, .gap 1, .lit L!"]"]
  -- 649-652
  | .tableMember =>
    some [.lit L!".", .gap 0, .kid 0]
  -- 673-676
  | .doEnd =>
    some [.lit L!"do", .gap 0, .lit L!"end"]
  -- 677-685
  | .doBEnd =>
    some [.lit L!"do", .gap 0, .kid 0, .gap 1, .lit L!"end"]
  -- 686-695
  | .varsExprs =>
    some [.kid 0, .gap 0, .lit L!"=", .gap 1, .kid 1]
  -- 697-707
  | .varRoundSuffix =>
    some [.lit L!"(", .gap 0, .kid 0, .gap 1, .lit L!")"]
  -- 713-718
  | .fnMethodCall =>
    some [.lit L!":", .gap 0, .kid 0, .gap 1, .kid 1]
  -- 724-727
  | .functionDef =>
    some [.lit L!"function", .gap 0, .kid 0]
  -- 728-739
  | .funcBody =>
    some [.lit L!"(", .gap 0, .lit L!")", .gap 1, .lit L!"end"]
  -- 740-753
  | .funcBodyB =>
    some [.lit L!"(", .gap 0, .lit L!")", .gap 1, .kid 0, .gap 2, .lit L!"end"]
  -- 754-766
  | .funcPBody =>
    some [.lit L!"(", .gap 0, .kid 0, .gap 1, .lit L!")", .gap 2, .lit L!"end"]
  -- 767-781
  | .funcPBodyB =>
    some [.lit L!"(", .gap 0, .kid 0, .gap 1, .lit L!")", .gap 2, .kid 1, .gap 3, .lit L!"end"]
  -- 795-800
  | .funcDecl =>
    some [.lit L!"function", .gap 0, .kid 0, .gap 1, .kid 1]
  -- 801-807
  | .localFuncDecl =>
    some [.lit L!"local", .gap 0, .lit L!"function", .gap 1, .kid 0, .gap 2, .kid 1]
  -- 809-813
  | .localNames =>
    some [.lit L!"local", .gap 0, .kid 0]
  -- 814-824
  | .localNamesExprs =>
    some [.lit L!"local", .gap 0, .kid 0, .gap 1, .lit L!"=", .gap 2, .kid 1]
  -- 827-839
  | .ifThen =>
    some [.lit L!"if", .gap 0, .kid 0, .gap 1, .lit L!"then", .gap 2, .lit L!"end"]
  -- 840-855
  | .ifThenB =>
    some [.lit L!"if", .gap 0, .kid 0, .gap 1, .lit L!"then", .gap 2, .kid 1, .gap 3, .lit L!"end"]
  -- 856-870
  | .ifThenElse =>
    some
      [.lit L!"if", .gap 0, .kid 0, .gap 1, .lit L!"then", .gap 2, .lit L!"else", .gap 3,
       .lit L!"end"]
  -- 871-886
  | .ifThenBElse =>
    some
      [.lit L!"if", .gap 0, .kid 0, .gap 1, .lit L!"then", .gap 2, .kid 1, .gap 3, .lit L!"else",
       .gap 4, .lit L!"end"]
  -- 887-902
  | .ifThenElseB =>
    some
      [.lit L!"if", .gap 0, .kid 0, .gap 1, .lit L!"then", .gap 2, .lit L!"else", .gap 3, .kid 1,
       .gap 4, .lit L!"end"]
  -- 903-920
  | .ifThenBElseB =>
    some
      [.lit L!"if", .gap 0, .kid 0, .gap 1, .lit L!"then", .gap 2, .kid 1, .gap 3, .lit L!"else",
       .gap 4, .kid 2, .gap 5, .lit L!"end"]
  -- 921-935
  | .ifThenElseIf =>
    some [.lit L!"if", .gap 0, .kid 0, .gap 1, .lit L!"then", .gap 2, .kid 1, .gap 3, .lit L!"end"]
  -- 936-951
  | .ifThenBElseIf =>
    some
      [.lit L!"if", .gap 0, .kid 0, .gap 1, .lit L!"then", .gap 2, .kid 1, .gap 3, .kid 2, .gap 4,
       .lit L!"end"]
  -- 952-967
  | .ifThenElseIfElse =>
    some
      [.lit L!"if", .gap 0, .kid 0, .gap 1, .lit L!"then", .gap 2, .kid 1, .gap 3, .lit L!"else",
       .gap 4, .lit L!"end"]
  -- 968-984
  | .ifThenBElseIfElse =>
    some
      [.lit L!"if", .gap 0, .kid 0, .gap 1, .lit L!"then", .gap 2, .kid 1, .gap 3, .kid 2, .gap 4,
       .lit L!"else", .gap 5, .lit L!"end"]
  -- 985-1001
  | .ifThenElseIfElseB =>
    some
      [.lit L!"if", .gap 0, .kid 0, .gap 1, .lit L!"then", .gap 2, .kid 1, .gap 3, .lit L!"else",
       .gap 4, .kid 2, .gap 5, .lit L!"end"]
  -- 1002-1019
  | .ifThenBElseIfElseB =>
    some
      [.lit L!"if", .gap 0, .kid 0, .gap 1, .lit L!"then", .gap 2, .kid 1, .gap 3, .kid 2, .gap 4,
       .lit L!"else", .gap 5, .kid 3, .gap 6, .lit L!"end"]
  -- 1025-1030
  | .elseIfThen =>
    some [.lit L!"elseif", .gap 0, .kid 0, .gap 1, .lit L!"then"]
  -- 1031-1039
  | .elseIfThenB =>
    some [.lit L!"elseif", .gap 0, .kid 0, .gap 1, .lit L!"then", .gap 2, .kid 1]
  -- 1042-1045
  | .label =>
    some [.lit L!"::", .gap 0, .kid 0, .gap 1, .lit L!"::"]
  -- 1046-1049
  | .goTo =>
    some [.lit L!"goto", .gap 0, .kid 0]
  -- 1050-1059
  | .whileDo =>
    some [.lit L!"while", .gap 0, .kid 0, .gap 1, .lit L!"do", .gap 2, .lit L!"end"]
  -- 1060-1071
  | .whileDoB =>
    some [.lit L!"while", .gap 0, .kid 0, .gap 1, .lit L!"do", .gap 2, .kid 1, .gap 3, .lit L!"end"]
  -- 1072-1080
  | .repeatUntil =>
    some [.lit L!"repeat", .gap 0, .lit L!"until", .gap 1, .kid 0]
  -- 1081-1089
  | .repeatBUntil =>
    some [.lit L!"repeat", .gap 0, .kid 0, .gap 1, .lit L!"until", .gap 2, .kid 1]
  -- 1091-1100
  | .forInt =>
    some
      [.lit L!"for", .gap 0, .kid 0, .gap 1, .lit L!"=", .gap 2, .kid 1, .gap 3, .lit L!",",
       .gap 4, .kid 2, .gap 5, .lit L!"do", .gap 6, .lit L!"end"]
  -- 1101-1113
  | .forIntB =>
    some
      [.lit L!"for", .gap 0, .kid 0, .gap 1, .lit L!"=", .gap 2, .kid 1, .gap 3, .lit L!",",
       .gap 4, .kid 2, .gap 5, .lit L!"do", .gap 6, .kid 3, .gap 7, .lit L!"end"]
  -- 1114-1126
  | .forIntStep =>
    some
      [.lit L!"for", .gap 0, .kid 0, .gap 1, .lit L!"=", .gap 2, .kid 1, .gap 3, .lit L!",",
       .gap 4, .kid 2, .gap 5, .lit L!",", .gap 6, .kid 3, .gap 7, .lit L!"do", .gap 8,
       .lit L!"end"]
  -- 1127-1139
  | .forIntStepB =>
    some
      [.lit L!"for", .gap 0, .kid 0, .gap 1, .lit L!"=", .gap 2, .kid 1, .gap 3, .lit L!",",
       .gap 4, .kid 2, .gap 5, .lit L!",", .gap 6, .kid 3, .gap 7, .lit L!"do", .gap 8, .kid 4,
       .gap 9, .lit L!"end"]
  -- 1140-1155
  | .forRange =>
    some
      [.lit L!"for", .gap 0, .kid 0, .gap 1, .lit L!"in", .gap 2, .kid 1, .gap 3, .lit L!"do",
       .gap 4, .lit L!"end"]
  -- 1156-1171
  | .forRangeB =>
    some
      [.lit L!"for", .gap 0, .kid 0, .gap 1, .lit L!"in", .gap 2, .kid 1, .gap 3, .lit L!"do",
       .gap 4, .kid 2, .gap 5, .lit L!"end"]
  -- 1174-1182
  | .retStatExpr =>
    some [.lit L!"return", .gap 0, .kid 0]
  -- 1183-1187
  | .retStatNoneComma =>
    some [.lit L!"return", .gap 0, .lit L!";"]
  -- 1188-1200
  | .retStatExprComma =>
    some [.lit L!"return", .gap 0, .kid 0, .gap 1, .lit L!";"]
  -- 1201-1206
  | .statsRetStat =>
    some [.kid 0, .gap 0, .kid 1]
  | _ => none

/-- The arguments of `cfg_write!`, for the arms that are a fixed sequence. -/
def Tag.template (c : Config) : Tag → Option (List Fm)
  -- 507-511
  | .unaryOp op =>
    some [.el (.lit op), .el (.hint 0 L!""), .el (.kid 0)]
  -- 512-516
  | .unaryNot =>
    some [.el (.lit L!"not"), .el (.hint 0 L!" "), .el (.kid 0)]
  -- 518-524
  | .var =>
    some [.el (.kid 0), .ind 1 0 L!"" [.hint 0 L!"", .kid 1]]
  -- 525-530
  | .roundBrackets =>
    some [.el (.lit L!"("), .el (.hint 0 L!""), .el (.kid 0), .el (.hint 1 L!""), .el (.lit L!")")]
  -- 531-540
  | .argsRoundBrackets =>
    some [.el (.lit L!"("), .ind 0 0 L!"" [.hint 0 L!"", .kid 0], .el (.hint 1 L!""), .el (.lit L!")")]
  -- 541-544
  | .argsRoundBracketsEmpty =>
    some [.el (.lit L!"("), .el (.hint 0 L!""), .el (.lit L!")")]
  -- 628-635
  | .fieldNamedBracket =>
    some
      [.el (.lit L!"["), .el (.hint 0 L!""), .el (.kid 0), .el (.hint 1 L!""), .el (.lit L!"]"),
       .el (.hint 2 L!" "), .el (.lit L!"="), .el (.hint 3 L!" "), .el (.kid 1)]
  -- 636-639
  | .fieldNamed =>
    some [.el (.kid 0), .el (.hint 0 L!" "), .el (.lit L!"="), .el (.hint 1 L!" "), .el (.kid 1)]
  -- 640-643
  | .fieldSequential =>
    some [.el (.kid 0)]
  -- 645-648
  | .tableIndex =>
    some [.el (.lit L!"["), .el (.hint 0 L!""), .el (.kid 0), .el (.hint 1 L!""), .el (.lit L!"]")]
  -- 649-652
  | .tableMember =>
    some [.el (.lit L!"."), .el (.hint 0 L!""), .el (.kid 0)]
  -- 673-676
  | .doEnd =>
    some [.el (.lit L!"do"), .el (.hint 0 L!" "), .el (.lit L!"end")]
  -- 677-685
  | .doBEnd =>
    let nl : Bool := c.num .newlineFormatDoEnd = some 1
    some
      [.el (.lit L!"do"), .el .inc, .el (.nl nl 0 L!" "), .el (.kid 0), .el .dec,
       .el (.nl nl 1 L!" "), .el (.lit L!"end")]
  -- 686-695
  | .varsExprs =>
    some [.el (.kid 0), .el (.hint 0 L!" "), .el (.lit L!"="), .ind 1 1 L!" " [.hint 1 L!" ", .kid 1]]
  -- 697-707
  | .varRoundSuffix =>
    some
      [.el (.lit L!"("), .el (.hint 0 L!""), .el (.kid 0), .el (.hint 1 L!""), .el (.lit L!")"),
       .ind 1 0 L!"" [.hint 2 L!"", .kid 1]]
  -- 713-718
  | .fnMethodCall =>
    some [.el (.lit L!":"), .el (.hint 0 L!""), .el (.kid 0), .el (.hint 1 L!""), .el (.kid 1)]
  -- 724-727
  | .functionDef =>
    some [.el (.lit L!"function"), .el (.hint 0 L!""), .el (.kid 0)]
  -- 728-739
  | .funcBody =>
    let nl : Bool := c.num .newlineFormatFunction = some 1
    some
      [.el (.lit L!"("), .el (.hint 0 L!""), .el (.lit L!")"), .el (.nl nl 1 L!" "),
       .el (.lit L!"end")]
  -- 740-753
  | .funcBodyB =>
    let nl : Bool := c.num .newlineFormatFunction = some 1
    some
      [.el (.lit L!"("), .el (.hint 0 L!""), .el (.lit L!")"), .el .inc, .el .incF,
       .el (.nl nl 1 L!" "), .el (.kid 0), .el .dec, .el .decF, .el (.nl nl 2 L!" "),
       .el (.lit L!"end")]
  -- 754-766
  | .funcPBody =>
    let nl : Bool := c.num .newlineFormatFunction = some 1
    some
      [.el (.lit L!"("), .el .inc, .el (.hint 0 L!""), .el (.kid 0), .el (.hint 1 L!""), .el .dec,
       .el (.lit L!")"), .el (.nl nl 2 L!" "), .el (.lit L!"end")]
  -- 767-781
  | .funcPBodyB =>
    let nl : Bool := c.num .newlineFormatFunction = some 1
    some
      [.el (.lit L!"("), .el .inc, .el (.hint 0 L!""), .el (.kid 0), .el (.hint 1 L!""), .el .dec,
       .el (.lit L!")"), .el .inc, .el .incF, .el (.nl nl 2 L!" "), .el (.kid 1), .el .dec,
       .el .decF, .el (.nl nl 3 L!" "), .el (.lit L!"end")]
  -- 787-794
  | .funcNameSelf =>
    some [.el (.kid 0), .el (.hint 0 L!""), .el (.lit L!":"), .el (.hint 1 L!""), .el (.kid 1)]
  -- 795-800
  | .funcDecl =>
    some [.el (.lit L!"function"), .el (.hint 0 L!" "), .el (.kid 0), .el (.hint 1 L!""), .el (.kid 1)]
  -- 801-807
  | .localFuncDecl =>
    some
      [.el (.lit L!"local"), .el (.hint 0 L!" "), .el (.lit L!"function"), .el (.hint 1 L!" "),
       .el (.kid 0), .el (.hint 2 L!""), .el (.kid 1)]
  -- 809-813
  | .localNames =>
    some [.el (.lit L!"local"), .el (.hint 0 L!" "), .el (.kid 0)]
  -- 814-824
  | .localNamesExprs =>
    some
      [.el (.lit L!"local"), .el (.hint 0 L!" "), .el (.kid 0), .el (.hint 1 L!" "),
       .el (.lit L!"="), .ind 1 2 L!" " [.hint 2 L!" ", .kid 1]]
  -- 827-839
  | .ifThen =>
    let nl : Bool := c.num .newlineFormatIf = some 1
    some
      [.el (.lit L!"if"), .el (.hint 0 L!" "), .el (.kid 0), .el (.hint 1 L!" "),
       .el (.lit L!"then"), .el (.nl nl 2 L!" "), .el (.lit L!"end")]
  -- 840-855
  | .ifThenB =>
    let nl : Bool := c.num .newlineFormatIf = some 1
    some
      [.el (.lit L!"if"), .el (.hint 0 L!" "), .el (.kid 0), .el (.hint 1 L!" "),
       .el (.lit L!"then"), .el .inc, .el (.nl nl 2 L!" "), .el (.kid 1), .el .dec,
       .el (.nl nl 3 L!" "), .el (.lit L!"end")]
  -- 856-870
  | .ifThenElse =>
    let nl : Bool := c.num .newlineFormatIf = some 1
    some
      [.el (.lit L!"if"), .el (.hint 0 L!" "), .el (.kid 0), .el (.hint 1 L!" "),
       .el (.lit L!"then"), .el (.hint 2 L!" "), .el (.lit L!"else"), .el (.nl nl 3 L!" "),
       .el (.lit L!"end")]
  -- 871-886
  | .ifThenBElse =>
    let nl : Bool := c.num .newlineFormatIf = some 1
    some
      [.el (.lit L!"if"), .el (.hint 0 L!" "), .el (.kid 0), .el (.hint 1 L!" "),
       .el (.lit L!"then"), .el .inc, .el (.nl nl 2 L!" "), .el (.kid 1), .el .dec,
       .el (.nl nl 3 L!" "), .el (.lit L!"else"), .el (.nl nl 4 L!" "), .el (.lit L!"end")]
  -- 887-902
  | .ifThenElseB =>
    let nl : Bool := c.num .newlineFormatIf = some 1
    some
      [.el (.lit L!"if"), .el (.hint 0 L!" "), .el (.kid 0), .el (.hint 1 L!" "),
       .el (.lit L!"then"), .el (.hint 2 L!" "), .el (.lit L!"else"), .el .inc,
       .el (.nl nl 3 L!" "), .el (.kid 1), .el .dec, .el (.nl nl 4 L!" "), .el (.lit L!"end")]
  -- 903-920
  | .ifThenBElseB =>
    let nl : Bool := c.num .newlineFormatIf = some 1
    some
      [.el (.lit L!"if"), .el (.hint 0 L!" "), .el (.kid 0), .el (.hint 1 L!" "),
       .el (.lit L!"then"), .el .inc, .el (.nl nl 2 L!" "), .el (.kid 1), .el .dec,
       .el (.nl nl 3 L!" "), .el (.lit L!"else"), .el .inc, .el (.nl nl 4 L!" "), .el (.kid 2),
       .el .dec, .el (.nl nl 5 L!" "), .el (.lit L!"end")]
  -- 921-935
  | .ifThenElseIf =>
    let nl : Bool := c.num .newlineFormatIf = some 1
    some
      [.el (.lit L!"if"), .el (.hint 0 L!" "), .el (.kid 0), .el (.hint 1 L!" "),
       .el (.lit L!"then"), .el (.nl nl 2 L!" "), .el (.kid 1), .el (.nl nl 3 L!" "),
       .el (.lit L!"end")]
  -- 936-951
  | .ifThenBElseIf =>
    let nl : Bool := c.num .newlineFormatIf = some 1
    some
      [.el (.lit L!"if"), .el (.hint 0 L!" "), .el (.kid 0), .el (.hint 1 L!" "),
       .el (.lit L!"then"), .el .inc, .el (.nl nl 2 L!" "), .el (.kid 1), .el .dec,
       .el (.nl nl 3 L!" "), .el (.kid 2), .el (.nl nl 4 L!" "), .el (.lit L!"end")]
  -- 952-967
  | .ifThenElseIfElse =>
    let nl : Bool := c.num .newlineFormatIf = some 1
    some
      [.el (.lit L!"if"), .el (.hint 0 L!" "), .el (.kid 0), .el (.hint 1 L!" "),
       .el (.lit L!"then"), .el (.nl nl 2 L!" "), .el (.kid 1), .el (.nl nl 3 L!" "),
       .el (.lit L!"else"), .el (.nl nl 4 L!" "), .el (.lit L!"end")]
  -- 968-984
  | .ifThenBElseIfElse =>
    let nl : Bool := c.num .newlineFormatIf = some 1
    some
      [.el (.lit L!"if"), .el (.hint 0 L!" "), .el (.kid 0), .el (.hint 1 L!" "),
       .el (.lit L!"then"), .el .inc, .el (.nl nl 2 L!" "), .el (.kid 1), .el .dec,
       .el (.nl nl 3 L!" "), .el (.kid 2), .el (.nl nl 4 L!" "), .el (.lit L!"else"),
       .el (.nl nl 5 L!" "), .el (.lit L!"end")]
  -- 985-1001
  | .ifThenElseIfElseB =>
    let nl : Bool := c.num .newlineFormatIf = some 1
    some
      [.el (.lit L!"if"), .el (.hint 0 L!" "), .el (.kid 0), .el (.hint 1 L!" "),
       .el (.lit L!"then"), .el (.nl nl 2 L!" "), .el (.kid 1), .el (.nl nl 3 L!" "),
       .el (.lit L!"else"), .el .inc, .el (.nl nl 4 L!" "), .el (.kid 2), .el .dec,
       .el (.nl nl 5 L!" "), .el (.lit L!"end")]
  -- 1002-1019
  | .ifThenBElseIfElseB =>
    let nl : Bool := c.num .newlineFormatIf = some 1
    some
      [.el (.lit L!"if"), .el (.hint 0 L!" "), .el (.kid 0), .el (.hint 1 L!" "),
       .el (.lit L!"then"), .el .inc, .el (.nl nl 2 L!" "), .el (.kid 1), .el .dec,
       .el (.nl nl 3 L!" "), .el (.kid 2), .el (.nl nl 4 L!" "), .el (.lit L!"else"), .el .inc,
       .el (.nl nl 5 L!" "), .el (.kid 3), .el .dec, .el (.nl nl 6 L!" "), .el (.lit L!"end")]
  -- 1025-1030
  | .elseIfThen =>
    some
      [.el (.lit L!"elseif"), .el (.hint 0 L!" "), .el (.kid 0), .el (.hint 1 L!" "),
       .el (.lit L!"then")]
  -- 1031-1039
  | .elseIfThenB =>
    let nl : Bool := c.num .newlineFormatIf = some 1
    some
      [.el (.lit L!"elseif"), .el (.hint 0 L!" "), .el (.kid 0), .el (.hint 1 L!" "),
       .el (.lit L!"then"), .el .inc, .el (.nl nl 2 L!" "), .el (.kid 1), .el .dec]
  -- 1042-1045
  | .label =>
    some [.el (.lit L!"::"), .el (.hint 0 L!""), .el (.kid 0), .el (.hint 1 L!""), .el (.lit L!"::")]
  -- 1046-1049
  | .goTo =>
    some [.el (.lit L!"goto"), .el (.hint 0 L!" "), .el (.kid 0)]
  -- 1050-1059
  | .whileDo =>
    let nl : Bool := c.num .newlineFormatWhile = some 1
    some
      [.el (.lit L!"while"), .el (.hint 0 L!" "), .el (.kid 0), .el (.hint 1 L!" "),
       .el (.lit L!"do"), .el (.nl nl 2 L!" "), .el (.lit L!"end")]
  -- 1060-1071
  | .whileDoB =>
    let nl : Bool := c.num .newlineFormatWhile = some 1
    some
      [.el (.lit L!"while"), .el (.hint 0 L!" "), .el (.kid 0), .el (.hint 1 L!" "),
       .el (.lit L!"do"), .el .inc, .el (.nl nl 2 L!" "), .el (.kid 1), .el .dec,
       .el (.nl nl 3 L!" "), .el (.lit L!"end")]
  -- 1072-1080
  | .repeatUntil =>
    let nl : Bool := c.num .newlineFormatRepeatUntil = some 1
    some
      [.el (.lit L!"repeat"), .el (.nl nl 0 L!" "), .el (.lit L!"until"), .el (.hint 1 L!" "),
       .el (.kid 0)]
  -- 1081-1089
  | .repeatBUntil =>
    let nl : Bool := c.num .newlineFormatRepeatUntil = some 1
    some
      [.el (.lit L!"repeat"), .el .inc, .el (.nl nl 0 L!" "), .el (.kid 0), .el .dec,
       .el (.nl nl 1 L!" "), .el (.lit L!"until"), .el (.hint 2 L!" "), .el (.kid 1)]
  -- 1091-1100
  | .forInt =>
    some
      [.el (.lit L!"for"), .el (.hint 0 L!" "), .el (.kid 0), .el (.hint 1 L!" "),
       .el (.lit L!"="), .el (.hint 2 L!" "), .el (.kid 1), .el (.hint 3 L!""), .el (.lit L!","),
       .el (.hint 4 L!" "), .el (.kid 2), .el (.hint 5 L!" "), .el (.lit L!"do"),
       .el (.hint 6 L!" "), .el (.lit L!"end")]
  -- 1101-1113
  | .forIntB =>
    let nl : Bool := c.num .newlineFormatFor = some 1
    some
      [.el (.lit L!"for"), .el (.hint 0 L!" "), .el (.kid 0), .el (.hint 1 L!" "),
       .el (.lit L!"="), .el (.hint 2 L!" "), .el (.kid 1), .el (.hint 3 L!""), .el (.lit L!","),
       .el (.hint 4 L!" "), .el (.kid 2), .el (.hint 5 L!" "), .el (.lit L!"do"), .el .inc,
       .el (.nl nl 6 L!" "), .el (.kid 3), .el .dec, .el (.nl nl 7 L!" "), .el (.lit L!"end")]
  -- 1114-1126
  | .forIntStep =>
    let nl : Bool := c.num .newlineFormatFor = some 1
    some
      [.el (.lit L!"for"), .el (.hint 0 L!" "), .el (.kid 0), .el (.hint 1 L!" "),
       .el (.lit L!"="), .el (.hint 2 L!" "), .el (.kid 1), .el (.hint 3 L!""), .el (.lit L!","),
       .el (.hint 4 L!" "), .el (.kid 2), .el (.hint 5 L!""), .el (.lit L!","),
       .el (.hint 6 L!" "), .el (.kid 3), .el (.hint 7 L!" "), .el (.lit L!"do"),
       .el (.nl nl 8 L!" "), .el (.lit L!"end")]
  -- 1127-1139
  | .forIntStepB =>
    let nl : Bool := c.num .newlineFormatFor = some 1
    some
      [.el (.lit L!"for"), .el (.hint 0 L!" "), .el (.kid 0), .el (.hint 1 L!" "),
       .el (.lit L!"="), .el (.hint 2 L!" "), .el (.kid 1), .el (.hint 3 L!""), .el (.lit L!","),
       .el (.hint 4 L!" "), .el (.kid 2), .el (.hint 5 L!""), .el (.lit L!","),
       .el (.hint 6 L!" "), .el (.kid 3), .el (.hint 7 L!" "), .el (.lit L!"do"), .el .inc,
       .el (.nl nl 8 L!" "), .el (.kid 4), .el .dec, .el (.nl nl 9 L!" "), .el (.lit L!"end")]
  -- 1140-1155
  | .forRange =>
    let nl : Bool := c.num .newlineFormatFor = some 1
    some
      [.el (.lit L!"for"), .el (.hint 0 L!" "), .el (.kid 0), .el (.hint 1 L!" "),
       .el (.lit L!"in"), .ind 1 2 L!" " [.hint 2 L!" ", .kid 1], .el (.hint 3 L!" "),
       .el (.lit L!"do"), .el (.nl nl 4 L!" "), .el (.lit L!"end")]
  -- 1156-1171
  | .forRangeB =>
    let nl : Bool := c.num .newlineFormatFor = some 1
    some
      [.el (.lit L!"for"), .el (.hint 0 L!" "), .el (.kid 0), .el (.hint 1 L!" "),
       .el (.lit L!"in"), .ind 1 2 L!" " [.hint 2 L!" ", .kid 1], .el (.hint 3 L!" "),
       .el (.lit L!"do"), .el .inc, .el (.nl nl 4 L!" "), .el (.kid 2), .el .dec,
       .el (.nl nl 5 L!" "), .el (.lit L!"end")]
  -- 1174-1182
  | .retStatExpr =>
    some [.el (.lit L!"return"), .ind 0 0 L!" " [.hint 0 L!" ", .kid 0]]
  -- 1183-1187
  | .retStatNoneComma =>
    some [.el (.lit L!"return"), .el (.hint 0 L!""), .el (.lit L!";")]
  -- 1188-1200
  | .retStatExprComma =>
    some
      [.el (.lit L!"return"), .ind 0 0 L!" " [.hint 0 L!" ", .kid 0, .hint 1 L!""],
       .el (.lit L!";")]
  -- 1201-1206
  | .statsRetStat =>
    let nl : Bool := (c.num .newlineFormatStatement).isSome
    some [.el (.kid 0), .el (.nl nl 0 L!" "), .el (.kid 1)]
  -- 1207-1210
  | .chunk =>
    let nl : Bool := c.bool .writeNewlineAtEof = some true
    some [.el (.hint 0 L!""), .el (.kid 0), .el (.nl nl 1 L!"")]
  -- 1211-1214
  | .sheBangChunk =>
    let nl : Bool := c.bool .writeNewlineAtEof = some true
    some [.el (.hint 0 L!""), .el (.kid 0), .el (.hint 1 L!""), .el (.kid 1), .el (.nl nl 2 L!"")]
  | _ => none

end Luafmt
