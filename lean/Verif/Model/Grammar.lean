import Verif.Model.Ast
import Verif.Model.LuaLexer

/-
The grammar of src/parser/lua_syntax.lalrpop as data, and derivation trees.

The macros `TList`, `TSepList`, `TSepEndList` (lines 9-59) are the symbols `list`, `sep`, `sepEnd`.
The grammar's actions build a node from the parts of the production in order, record the gap between
any two consecutive parts, and the span from the first to the last part; `Verif.Model.Parser` does
that for derivation trees. The rule `VarSuffixNoEndPar` (lines 349-354) is never used and left out;
the four productions of `Chunk` (lines 62-76) are in `Verif.Model.Parser`.
-/
namespace Luafmt

/-- The nonterminals of the grammar. `op k` is `Opk<Exp>`; `funcNameItems` is the `TSepList` part of
the second production of `FuncName` (line 274). -/
inductive NT where
  | block | sheBangLine | stats | stat | statStartsMayEndsPar | statMayEndsPar | statNoPar
  | elseIfThenVec | elseIfThen | retStat | label | funcName | varListStartsPar
  | varListNoStartPar | functionCallNoStartsMayEndsPar | varNoExp | functionCallStartsMayEndsPar
  | prefixMayStartsMayEndsPar | varExp | varMayExp | varSuffixList | varSuffix | nameList
  | expList | exp | args | functionDef | funcBody | parList | par | tableConstructor | fieldList
  | field | opExp | name | stringLiteral
  | funcNameItems
  | op (k : Nat)
  deriving DecidableEq, Repr

/-- A symbol of a right-hand side: a terminal, a nonterminal, `TList<nt>`, `TSepList<nt, tok>`, or
`TSepEndList<nt, FieldSep>`. -/
inductive Sym where
  | t (tok : Token)
  | n (nt : NT)
  | list (nt : NT)
  | sep (nt : NT) (tok : Token)
  | sepEnd (nt : NT)
  deriving DecidableEq, Repr

/-- Derivation trees with leaves of type `α` (tokens, or tokens with positions). -/
inductive Cst (α : Type) where
  | tok (a : α)
  | node (tag : Tag) (cs : List (Cst α))
  deriving Repr

mutual
/-- The leaves of a derivation tree from left to right. -/
def Cst.yield {α : Type} : Cst α → List α
  | .tok a => [a]
  | .node _ cs => Cst.yields cs
/-- The leaves of a sequence of trees. -/
def Cst.yields {α : Type} : List (Cst α) → List α
  | [] => []
  | c :: cs => c.yield ++ Cst.yields cs
end

/-- Productions that consist of one nonterminal and have no action
(src/parser/lua_syntax.lalrpop; the line is given with each entry). -/
def chains : List (NT × NT) := [
  (.block, .stats),  -- 79
  (.block, .retStat),  -- 80
  (.stat, .statNoPar),  -- 107
  (.stat, .statMayEndsPar),  -- 108
  (.statStartsMayEndsPar, .functionCallStartsMayEndsPar),  -- 121
  (.statMayEndsPar, .functionCallNoStartsMayEndsPar),  -- 125
  (.statNoPar, .label),  -- 140
  (.varListStartsPar, .varExp),  -- 281
  (.varNoExp, .name),  -- 314
  (.prefixMayStartsMayEndsPar, .varMayExp),  -- 327
  (.varMayExp, .name),  -- 338
  (.varSuffix, .args),  -- 357
  (.exp, .stringLiteral),  -- 381
  (.exp, .functionDef),  -- 383
  (.exp, .prefixMayStartsMayEndsPar),  -- 384
  (.exp, .tableConstructor),  -- 385
  (.args, .tableConstructor),  -- 393
  (.args, .stringLiteral),  -- 394
  (.par, .name),  -- 418
  (.opExp, .op 0),  -- 447
  (.op 0, .op 1),  -- 453
  (.op 1, .op 2),  -- 459
  (.op 2, .op 3),  -- 475
  (.op 3, .op 4),  -- 481
  (.op 4, .op 5),  -- 487
  (.op 5, .op 6),  -- 493
  (.op 6, .op 7),  -- 501
  (.op 7, .op 8),  -- 508
  (.op 8, .op 9),  -- 516
  (.op 9, .op 10),  -- 528
  (.op 10, .op 11),  -- 540
  (.op 11, .exp)]  -- 547

/-- Productions with an action: nonterminal, tag of the node that is built, right-hand side
(src/parser/lua_syntax.lalrpop; lines given with each entry). -/
def prods : List (NT × Tag × List Sym) := [
  (.block, .statsRetStat, [.n .stats, .n .retStat]),  -- 81-82
  (.stats, .statementList, [.n .statStartsMayEndsPar]),  -- 90-94
  (.stats, .statementList, [.n .statStartsMayEndsPar, .list .stat]),  -- 95-102
  (.stats, .statementList, [.list .stat]),  -- 103-103
  (.stat, .statementList, [.n .statNoPar, .n .statStartsMayEndsPar]),  -- 109-114
  (.statStartsMayEndsPar, .varsExprs, [.n .varListStartsPar, .t .equalsSign, .n .expList]),  -- 118-119
  (.statMayEndsPar, .varsExprs, [.n .varListNoStartPar, .t .equalsSign, .n .expList]),  -- 126-127
  (.statMayEndsPar, .repeatBUntil, [.t .kwRepeat, .n .block, .t .kwUntil, .n .opExp]),  -- 129-130
  (.statMayEndsPar, .repeatUntil, [.t .kwRepeat, .t .kwUntil, .n .opExp]),  -- 131-132
  (.statMayEndsPar, .localNamesExprs, [.t .kwLocal, .n .nameList, .t .equalsSign, .n .expList]),  -- 134-135
  (.statNoPar, .semicolon, [.t .semicolon]),  -- 139-139
  (.statNoPar, .break_, [.t .kwBreak]),  -- 141-141
  (.statNoPar, .goTo, [.t .kwGoto, .n .name]),  -- 142-143
  (.statNoPar, .doEnd, [.t .kwDo, .t .kwEnd]),  -- 145-146
  (.statNoPar, .doBEnd, [.t .kwDo, .n .block, .t .kwEnd]),  -- 147-148
  (.statNoPar, .whileDo, [.t .kwWhile, .n .opExp, .t .kwDo, .t .kwEnd]),  -- 150-151
  (.statNoPar, .whileDoB, [.t .kwWhile, .n .opExp, .t .kwDo, .n .block, .t .kwEnd]),  -- 152-153
  (.statNoPar, .ifThen, [.t .kwIf, .n .opExp, .t .kwThen, .t .kwEnd]),  -- 156-157
  (.statNoPar, .ifThenB, [.t .kwIf, .n .opExp, .t .kwThen, .n .block, .t .kwEnd]),  -- 158-159
  (.statNoPar, .ifThenElse, [.t .kwIf, .n .opExp, .t .kwThen, .t .kwElse, .t .kwEnd]),  -- 161-162
  (.statNoPar, .ifThenBElse, [.t .kwIf, .n .opExp, .t .kwThen, .n .block, .t .kwElse, .t .kwEnd]),  -- 163-166
  (.statNoPar, .ifThenElseB, [.t .kwIf, .n .opExp, .t .kwThen, .t .kwElse, .n .block, .t .kwEnd]),  -- 167-170
  (.statNoPar, .ifThenBElseB, [.t .kwIf, .n .opExp, .t .kwThen, .n .block, .t .kwElse, .n .block,
    .t .kwEnd]),  -- 171-174
  (.statNoPar, .ifThenElseIf, [.t .kwIf, .n .opExp, .t .kwThen, .n .elseIfThenVec, .t .kwEnd]),  -- 176-178
  (.statNoPar, .ifThenBElseIf, [.t .kwIf, .n .opExp, .t .kwThen, .n .block, .n .elseIfThenVec,
    .t .kwEnd]),  -- 179-182
  (.statNoPar, .ifThenElseIfElse, [.t .kwIf, .n .opExp, .t .kwThen, .n .elseIfThenVec,
    .t .kwElse, .t .kwEnd]),  -- 184-187
  (.statNoPar, .ifThenBElseIfElse, [.t .kwIf, .n .opExp, .t .kwThen, .n .block,
    .n .elseIfThenVec, .t .kwElse, .t .kwEnd]),  -- 188-191
  (.statNoPar, .ifThenElseIfElseB, [.t .kwIf, .n .opExp, .t .kwThen, .n .elseIfThenVec,
    .t .kwElse, .n .block, .t .kwEnd]),  -- 192-195
  (.statNoPar, .ifThenBElseIfElseB, [.t .kwIf, .n .opExp, .t .kwThen, .n .block,
    .n .elseIfThenVec, .t .kwElse, .n .block, .t .kwEnd]),  -- 196-199
  (.statNoPar, .forInt, [.t .kwFor, .n .name, .t .equalsSign, .n .opExp, .t .comma, .n .opExp,
    .t .kwDo, .t .kwEnd]),  -- 202-205
  (.statNoPar, .forIntB, [.t .kwFor, .n .name, .t .equalsSign, .n .opExp, .t .comma, .n .opExp,
    .t .kwDo, .n .block, .t .kwEnd]),  -- 207-210
  (.statNoPar, .forIntStep, [.t .kwFor, .n .name, .t .equalsSign, .n .opExp, .t .comma,
    .n .opExp, .t .comma, .n .opExp, .t .kwDo, .t .kwEnd]),  -- 212-216
  (.statNoPar, .forIntStepB, [.t .kwFor, .n .name, .t .equalsSign, .n .opExp, .t .comma,
    .n .opExp, .t .comma, .n .opExp, .t .kwDo, .n .block, .t .kwEnd]),  -- 218-223
  (.statNoPar, .forRange, [.t .kwFor, .n .nameList, .t .kwIn, .n .expList, .t .kwDo, .t .kwEnd]),  -- 225-228
  (.statNoPar, .forRangeB, [.t .kwFor, .n .nameList, .t .kwIn, .n .expList, .t .kwDo, .n .block,
    .t .kwEnd]),  -- 230-233
  (.statNoPar, .funcDecl, [.t .kwFunction, .n .funcName, .n .funcBody]),  -- 236-237
  (.statNoPar, .localFuncDecl, [.t .kwLocal, .t .kwFunction, .n .name, .n .funcBody]),  -- 238-239
  (.statNoPar, .localNames, [.t .kwLocal, .n .nameList]),  -- 240-241
  (.elseIfThenVec, .elseIfThenVec, [.list .elseIfThen]),  -- 245-245
  (.elseIfThen, .elseIfThen, [.t .kwElseIf, .n .opExp, .t .kwThen]),  -- 249-250
  (.elseIfThen, .elseIfThenB, [.t .kwElseIf, .n .opExp, .t .kwThen, .n .block]),  -- 251-252
  (.retStat, .retStatNone, [.t .kwReturn]),  -- 256-257
  (.retStat, .retStatExpr, [.t .kwReturn, .n .expList]),  -- 258-259
  (.retStat, .retStatNoneComma, [.t .kwReturn, .t .semicolon]),  -- 260-261
  (.retStat, .retStatExprComma, [.t .kwReturn, .n .expList, .t .semicolon]),  -- 262-263
  (.label, .label, [.t .label, .n .name, .t .label]),  -- 267-268
  (.funcName, .funcName [], [.sep .name .period]),  -- 272-273
  (.funcName, .funcNameSelf, [.n .funcNameItems, .t .colon, .n .name]),  -- 274-275
  (.varListStartsPar, .varList [], [.n .varExp, .t .comma, .sep .varMayExp .comma]),  -- 282-289
  (.varListNoStartPar, .varList [], [.n .varNoExp]),  -- 293-297
  (.varListNoStartPar, .varList [], [.n .varNoExp, .t .comma, .sep .varMayExp .comma]),  -- 298-305
  (.functionCallNoStartsMayEndsPar, .var, [.n .name, .n .varSuffixList]),  -- 309-310
  (.varNoExp, .var, [.n .name, .n .varSuffixList]),  -- 315-316
  (.functionCallStartsMayEndsPar, .roundBrackets, [.t .openRound, .n .opExp, .t .closeRound]),  -- 320-321
  (.functionCallStartsMayEndsPar, .varRoundSuffix, [.t .openRound, .n .opExp, .t .closeRound,
    .n .varSuffixList]),  -- 322-323
  (.prefixMayStartsMayEndsPar, .roundBrackets, [.t .openRound, .n .opExp, .t .closeRound]),  -- 328-329
  (.varExp, .varRoundSuffix, [.t .openRound, .n .opExp, .t .closeRound, .n .varSuffixList]),  -- 333-334
  (.varMayExp, .var, [.n .name, .n .varSuffixList]),  -- 339-340
  (.varMayExp, .varRoundSuffix, [.t .openRound, .n .opExp, .t .closeRound, .n .varSuffixList]),  -- 341-342
  (.varSuffixList, .varSuffixList, [.list .varSuffix]),  -- 346-346
  (.varSuffix, .tableIndex, [.t .openSquare, .n .opExp, .t .closeSquare]),  -- 358-359
  (.varSuffix, .tableMember, [.t .period, .n .name]),  -- 360-361
  (.varSuffix, .fnMethodCall, [.t .colon, .n .name, .n .args]),  -- 362-363
  (.nameList, .nameList [], [.sep .name .comma]),  -- 369-369
  (.expList, .expList [], [.sep .opExp .comma]),  -- 373-373
  (.exp, .nil_, [.t .kwNil]),  -- 377-377
  (.exp, .false_, [.t .kwFalse]),  -- 378-378
  (.exp, .true_, [.t .kwTrue]),  -- 379-379
  (.exp, .varArg, [.t .varArg]),  -- 382-382
  (.args, .argsRoundBrackets, [.t .openRound, .n .expList, .t .closeRound]),  -- 389-390
  (.args, .argsRoundBracketsEmpty, [.t .openRound, .t .closeRound]),  -- 391-392
  (.functionDef, .functionDef, [.t .kwFunction, .n .funcBody]),  -- 398-399
  (.funcBody, .funcBody, [.t .openRound, .t .closeRound, .t .kwEnd]),  -- 403-404
  (.funcBody, .funcBodyB, [.t .openRound, .t .closeRound, .n .block, .t .kwEnd]),  -- 405-406
  (.funcBody, .funcPBody, [.t .openRound, .n .parList, .t .closeRound, .t .kwEnd]),  -- 407-408
  (.funcBody, .funcPBodyB, [.t .openRound, .n .parList, .t .closeRound, .n .block, .t .kwEnd]),  -- 409-410
  (.parList, .parList [], [.sep .par .comma]),  -- 414-414
  (.par, .varArg, [.t .varArg]),  -- 419-419
  (.tableConstructor, .tableConstructor none none, [.t .openCurly, .n .fieldList,
    .t .closeCurly]),  -- 423-424
  (.tableConstructor, .tableConstructorEmpty, [.t .openCurly, .t .closeCurly]),  -- 425-426
  (.fieldList, .fields [] none none, [.sepEnd .field]),  -- 430-430
  (.field, .fieldNamedBracket, [.t .openSquare, .n .opExp, .t .closeSquare, .t .equalsSign,
    .n .opExp]),  -- 434-435
  (.field, .fieldNamed, [.n .name, .t .equalsSign, .n .opExp]),  -- 436-437
  (.field, .fieldSequential, [.n .opExp]),  -- 438-438
  (.op 0, .binaryOp L!"or", [.n (.op 0), .t .opLogicalOr, .n (.op 1)]),  -- 451-452
  (.op 1, .binaryOp L!"and", [.n (.op 1), .t .opLogicalAnd, .n (.op 2)]),  -- 457-458
  (.op 2, .binaryOp L!"==", [.n (.op 2), .t .opEquality, .n (.op 3)]),  -- 463-464
  (.op 2, .binaryOp L!"~=", [.n (.op 2), .t .opInequality, .n (.op 3)]),  -- 465-466
  (.op 2, .binaryOp L!"<", [.n (.op 2), .t .opLessThan, .n (.op 3)]),  -- 467-468
  (.op 2, .binaryOp L!">", [.n (.op 2), .t .opGreaterThan, .n (.op 3)]),  -- 469-470
  (.op 2, .binaryOp L!"<=", [.n (.op 2), .t .opLessOrEqual, .n (.op 3)]),  -- 471-472
  (.op 2, .binaryOp L!">=", [.n (.op 2), .t .opGreaterOrEqual, .n (.op 3)]),  -- 473-474
  (.op 3, .binaryOp L!"|", [.n (.op 3), .t .opBitwiseOr, .n (.op 4)]),  -- 479-480
  (.op 4, .binaryOp L!"~", [.n (.op 4), .t .tilde, .n (.op 5)]),  -- 485-486
  (.op 5, .binaryOp L!"&", [.n (.op 5), .t .opBitwiseAnd, .n (.op 6)]),  -- 491-492
  (.op 6, .binaryOp L!"<<", [.n (.op 6), .t .opLeftShift, .n (.op 7)]),  -- 497-498
  (.op 6, .binaryOp L!">>", [.n (.op 6), .t .opRightShift, .n (.op 7)]),  -- 499-500
  (.op 7, .binaryOp L!"..", [.n (.op 7), .t .opConcatenation, .n (.op 8)]),  -- 506-507
  (.op 8, .binaryOp L!"+", [.n (.op 8), .t .opAddition, .n (.op 9)]),  -- 512-513
  (.op 8, .binaryOp L!"-", [.n (.op 8), .t .minus, .n (.op 9)]),  -- 514-515
  (.op 9, .binaryOp L!"*", [.n (.op 9), .t .opMultiplication, .n (.op 10)]),  -- 520-521
  (.op 9, .binaryOp L!"/", [.n (.op 9), .t .opDivision, .n (.op 10)]),  -- 522-523
  (.op 9, .binaryOp L!"//", [.n (.op 9), .t .opFloorDivision, .n (.op 10)]),  -- 524-525
  (.op 9, .binaryOp L!"%", [.n (.op 9), .t .opModulo, .n (.op 10)]),  -- 526-527
  (.op 10, .unaryNot, [.t .opLogicalNot, .n (.op 10)]),  -- 532-533
  (.op 10, .unaryOp L!"#", [.t .opLength, .n (.op 11)]),  -- 534-535
  (.op 10, .unaryOp L!"-", [.t .minus, .n (.op 11)]),  -- 536-537
  (.op 10, .unaryOp L!"~", [.t .tilde, .n (.op 11)]),  -- 538-539
  (.op 11, .binaryOp L!"^", [.n (.op 11), .t .opExponentiation, .n .exp]),  -- 545-546
  (.funcNameItems, .funcNameItems [], [.sep .name .period])]  -- 274-274

/-- Productions from one terminal with a text, with the tag they build
(src/parser/lua_syntax.lalrpop: 86, 380, 551, 555, 556, 557). -/
def leafTag : Token → Option (NT × Tag)
  | .variable s => some (.name, .name s)
  | .numeral s => some (.exp, .numeral s)
  | .normalString s => some (.stringLiteral, .normalStringLiteral s)
  | .charString s => some (.stringLiteral, .charStringLiteral s)
  | .multiLineString level s => some (.stringLiteral, .multiLineStringLiteral level s)
  | .sheBang s => some (.sheBangLine, .sheBang s)
  | _ => none

/-- The separators of field lists, src/parser/lua_syntax.lalrpop:441-444. -/
def isFieldSep (t : Token) : Bool := t = .comma || t = .semicolon

mutual
/-- `Derives nt c`: `c` is a derivation tree for the nonterminal `nt`. -/
inductive Derives : NT → Cst Token → Prop
  | chain {a b : NT} {c : Cst Token} : (a, b) ∈ chains → Derives b c → Derives a c
  | prod {a : NT} {tag : Tag} {ss : List Sym} {cs : List (Cst Token)} :
      (a, tag, ss) ∈ prods → Matches ss cs → Derives a (.node tag cs)
  | leaf {a : NT} {tag : Tag} {t : Token} : leafTag t = some (a, tag) → Derives a (.node tag [.tok t])
/-- `Matches ss cs`: the trees `cs` are derived from the right-hand side `ss`. -/
inductive Matches : List Sym → List (Cst Token) → Prop
  | nil : Matches [] []
  | t {tok : Token} {ss : List Sym} {cs : List (Cst Token)} :
      Matches ss cs → Matches (.t tok :: ss) (.tok tok :: cs)
  | n {nt : NT} {c : Cst Token} {ss : List Sym} {cs : List (Cst Token)} :
      Derives nt c → Matches ss cs → Matches (.n nt :: ss) (c :: cs)
  | listLast {nt : NT} {c : Cst Token} {ss : List Sym} {cs : List (Cst Token)} :
      Derives nt c → Matches ss cs → Matches (.list nt :: ss) (c :: cs)
  | listCons {nt : NT} {c : Cst Token} {ss : List Sym} {cs : List (Cst Token)} :
      Derives nt c → Matches (.list nt :: ss) cs → Matches (.list nt :: ss) (c :: cs)
  | sepLast {nt : NT} {tok : Token} {c : Cst Token} {ss : List Sym} {cs : List (Cst Token)} :
      Derives nt c → Matches ss cs → Matches (.sep nt tok :: ss) (c :: cs)
  | sepCons {nt : NT} {tok : Token} {c : Cst Token} {ss : List Sym} {cs : List (Cst Token)} :
      Derives nt c → Matches (.sep nt tok :: ss) cs →
      Matches (.sep nt tok :: ss) (c :: .tok tok :: cs)
  | sepEndLast {nt : NT} {c : Cst Token} {ss : List Sym} {cs : List (Cst Token)} :
      Derives nt c → Matches ss cs → Matches (.sepEnd nt :: ss) (c :: cs)
  | sepEndTrail {nt : NT} {tok : Token} {c : Cst Token} {ss : List Sym} {cs : List (Cst Token)} :
      Derives nt c → isFieldSep tok = true → Matches ss cs →
      Matches (.sepEnd nt :: ss) (c :: .tok tok :: cs)
  | sepEndCons {nt : NT} {tok : Token} {c : Cst Token} {ss : List Sym} {cs : List (Cst Token)} :
      Derives nt c → isFieldSep tok = true → Matches (.sepEnd nt :: ss) cs →
      Matches (.sepEnd nt :: ss) (c :: .tok tok :: cs)
end

end Luafmt
