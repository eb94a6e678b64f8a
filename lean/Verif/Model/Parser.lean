import Verif.Model.Grammar
import Verif.Model.Write

/-
A parser for the grammar of src/parser/lua_syntax.lalrpop (`Verif.Model.Grammar`).

lalrpop generates an LR(1) automaton from the grammar file; the generated code is not in the
repository. The model is a recursive-descent parser over the token sequence. `Verif.Proofs` shows
that it returns exactly the derivation trees of the grammar, so what it does is determined by the
grammar file alone.

Parsing works in three steps: tokens (without positions) to derivation tree, attaching the positions
to the leaves, and computing nodes with their spans and gaps as the actions of the grammar do.
-/
namespace Luafmt

abbrev C := Cst Token

/-- What the recursive-descent parser can be asked for. The result is a list of trees. -/
inductive Req where
  /-- one tree for the nonterminal -/
  | nt (n : NT)
  /-- `Stat*` -/
  | statList
  /-- `ElseIfThen*` -/
  | elseIfs
  /-- `VarSuffix*` -/
  | suffixes
  /-- `(tok n)*` -/
  | sepTail (n : NT) (tok : Token)
  /-- `Field (FieldSep Field)* FieldSep?` -/
  | fieldItems
  /-- `(op Op(k+1))*` at precedence level `k`, to the right of `acc` -/
  | opTail (k : Nat) (acc : C)

abbrev PRes := Option (List C × List Token)

/-- The single tree of a result. -/
def one : PRes → Option (C × List Token)
  | some ([c], ts) => some (c, ts)
  | _ => none

/-- Consume the given token. -/
def expect (t : Token) : List Token → Option (List Token)
  | t' :: ts => if t' = t then some ts else none
  | [] => none

/-- Binary operators: precedence level and text, src/parser/lua_syntax.lalrpop:450-548. -/
def binOp : Token → Option (Nat × Str)
  | .opLogicalOr => some (0, L!"or")
  | .opLogicalAnd => some (1, L!"and")
  | .opEquality => some (2, L!"==")
  | .opInequality => some (2, L!"~=")
  | .opLessThan => some (2, L!"<")
  | .opGreaterThan => some (2, L!">")
  | .opLessOrEqual => some (2, L!"<=")
  | .opGreaterOrEqual => some (2, L!">=")
  | .opBitwiseOr => some (3, L!"|")
  | .tilde => some (4, L!"~")
  | .opBitwiseAnd => some (5, L!"&")
  | .opLeftShift => some (6, L!"<<")
  | .opRightShift => some (6, L!">>")
  | .opConcatenation => some (7, L!"..")
  | .opAddition => some (8, L!"+")
  | .minus => some (8, L!"-")
  | .opMultiplication => some (9, L!"*")
  | .opDivision => some (9, L!"/")
  | .opFloorDivision => some (9, L!"//")
  | .opModulo => some (9, L!"%")
  | .opExponentiation => some (11, L!"^")
  | _ => none

/-- The operand nonterminal of level `k`. -/
def nextOp (k : Nat) : NT := if k = 11 then .exp else .op (k + 1)

/-- Tokens that end a block. -/
def endsBlock : Token → Bool
  | .kwEnd | .kwElse | .kwElseIf | .kwUntil | .eof => true
  | _ => false

/-- First tokens of `Stat`. -/
def startsStat : Token → Bool
  | .variable _ | .kwRepeat | .kwLocal | .semicolon | .label | .kwBreak | .kwGoto | .kwDo | .kwWhile
  | .kwIf | .kwFor | .kwFunction => true
  | _ => false

/-- First tokens of `Block`. -/
def startsBlock (t : Token) : Bool := startsStat t || t = .openRound || t = .kwReturn

/-- First tokens of `VarSuffix`. -/
def startsSuffix : Token → Bool
  | .openRound | .openSquare | .period | .colon | .openCurly | .normalString _ | .charString _
  | .multiLineString _ _ => true
  | _ => false

/-- First tokens of `OpExp`. -/
def startsExp : Token → Bool
  | .kwNil | .kwFalse | .kwTrue | .numeral _ | .normalString _ | .charString _ | .multiLineString _ _
  | .varArg | .kwFunction | .variable _ | .openRound | .openCurly | .opLogicalNot | .opLength | .minus
  | .tilde => true
  | _ => false

/-- The nodes that are `StatNoPar` (they may be followed by a statement that starts with a
parenthesis without a separator). -/
def isNoPar : C → Bool
  | .node tag _ =>
    match tag with
    | .var | .varsExprs | .repeatBUntil | .repeatUntil | .localNamesExprs => false
    | _ => true
  | .tok _ => false

/-- The tag of an `if` statement: whether there is a first block, a list of `elseif`s, an `else`, and
a block after the `else` (src/parser/lua_syntax.lalrpop:156-199). -/
def ifTag : Bool → Bool → Bool → Bool → Tag
  | false, false, false, _ => .ifThen
  | true, false, false, _ => .ifThenB
  | false, false, true, false => .ifThenElse
  | true, false, true, false => .ifThenBElse
  | false, false, true, true => .ifThenElseB
  | true, false, true, true => .ifThenBElseB
  | false, true, false, _ => .ifThenElseIf
  | true, true, false, _ => .ifThenBElseIf
  | false, true, true, false => .ifThenElseIfElse
  | true, true, true, false => .ifThenBElseIfElse
  | false, true, true, true => .ifThenElseIfElseB
  | true, true, true, true => .ifThenBElseIfElseB

section
variable (rec : Req → List Token → PRes)

/-- A block if one starts here. -/
def optBlock (ts : List Token) : PRes :=
  match ts with
  | t :: _ => if startsBlock t then (one (rec (.nt .block) ts)).map fun p => ([p.1], p.2)
    else some ([], ts)
  | [] => some ([], ts)

/-- `Name`. -/
def nameP : List Token → Option (C × List Token)
  | .variable s :: ts => some (.node (.name s) [.tok (.variable s)], ts)
  | _ => none

/-- `Block`, src/parser/lua_syntax.lalrpop:78-83. -/
def blockP (ts : List Token) : Option (C × List Token) := do
  if ts.head? = some .kwReturn then one (rec (.nt .retStat) ts)
  else
    let (s, ts) ← one (rec (.nt .stats) ts)
    if ts.head? = some .kwReturn then
      let (r, ts) ← one (rec (.nt .retStat) ts)
      some (.node .statsRetStat [s, r], ts)
    else some (s, ts)

/-- `Stats`, src/parser/lua_syntax.lalrpop:89-104. -/
def statsP (ts : List Token) : Option (C × List Token) := do
  if ts.head? = some .openRound then
    let (s, ts) ← one (rec (.nt .statStartsMayEndsPar) ts)
    let (cs, ts) ← rec .statList ts
    some (.node .statementList (s :: cs), ts)
  else
    let (s, ts) ← one (rec (.nt .stat) ts)
    let (cs, ts) ← rec .statList ts
    some (.node .statementList (s :: cs), ts)

/-- `Stat*`. -/
def statListP (ts : List Token) : PRes :=
  match ts with
  | t :: _ =>
    if startsStat t then do
      let (s, ts) ← one (rec (.nt .stat) ts)
      let (cs, ts) ← rec .statList ts
      some (s :: cs, ts)
    else some ([], ts)
  | [] => some ([], ts)

/-- Assignment or call that starts with a name, src/parser/lua_syntax.lalrpop:125-127. -/
def nameStatP (ts : List Token) : Option (C × List Token) := do
  let (n, ts) ← nameP ts
  let (ss, ts) ← rec .suffixes ts
  let v : C := if ss.isEmpty then n else .node .var [n, .node .varSuffixList ss]
  if ts.head? = some .equalsSign ∨ ts.head? = some .comma then
    let (vs, ts) ← rec (.sepTail .varMayExp .comma) ts
    let ts ← expect .equalsSign ts
    let (e, ts) ← one (rec (.nt .expList) ts)
    some (.node .varsExprs [.node (.varList []) (v :: vs), .tok .equalsSign, e], ts)
  else if ss.isEmpty then none
  else some (v, ts)

/-- `StatStartsMayEndsPar`, src/parser/lua_syntax.lalrpop:117-122. -/
def parStatP (ts : List Token) : Option (C × List Token) := do
  let ts ← expect .openRound ts
  let (e, ts) ← one (rec (.nt .opExp) ts)
  let ts ← expect .closeRound ts
  let (ss, ts) ← rec .suffixes ts
  if ss.isEmpty then some (.node .roundBrackets [.tok .openRound, e, .tok .closeRound], ts)
  else
    let v : C := .node .varRoundSuffix [.tok .openRound, e, .tok .closeRound, .node .varSuffixList ss]
    if ts.head? = some .equalsSign ∨ ts.head? = some .comma then
      let (vs, ts) ← rec (.sepTail .varMayExp .comma) ts
      let ts ← expect .equalsSign ts
      let (e, ts) ← one (rec (.nt .expList) ts)
      some (.node .varsExprs
        [if vs.isEmpty then v else .node (.varList []) (v :: vs), .tok .equalsSign, e], ts)
    else some (v, ts)

/-- `repeat`, src/parser/lua_syntax.lalrpop:129-132. -/
def repeatP (ts : List Token) : Option (C × List Token) := do
  let ts ← expect .kwRepeat ts
  let (b, ts) ← optBlock rec ts
  let ts ← expect .kwUntil ts
  let (e, ts) ← one (rec (.nt .opExp) ts)
  some (.node (if b.isEmpty then .repeatUntil else .repeatBUntil)
    (.tok .kwRepeat :: b ++ [.tok .kwUntil, e]), ts)

/-- `local`, src/parser/lua_syntax.lalrpop:134-135, 238-241. -/
def localP (ts : List Token) : Option (C × List Token) := do
  let ts ← expect .kwLocal ts
  if ts.head? = some .kwFunction then
    let ts ← expect .kwFunction ts
    let (n, ts) ← nameP ts
    let (b, ts) ← one (rec (.nt .funcBody) ts)
    some (.node .localFuncDecl [.tok .kwLocal, .tok .kwFunction, n, b], ts)
  else
    let (n, ts) ← nameP ts
    let (ns, ts) ← rec (.sepTail .name .comma) ts
    let nl : C := .node (.nameList []) (n :: ns)
    if ts.head? = some .equalsSign then
      let ts ← expect .equalsSign ts
      let (e, ts) ← one (rec (.nt .expList) ts)
      some (.node .localNamesExprs [.tok .kwLocal, nl, .tok .equalsSign, e], ts)
    else some (.node .localNames [.tok .kwLocal, nl], ts)

/-- `goto`, `do`, `while`, labels, src/parser/lua_syntax.lalrpop:139-153, 266-269. -/
def simpleStatP (ts : List Token) : Option (C × List Token) :=
  match ts with
  | .semicolon :: ts => some (.node .semicolon [.tok .semicolon], ts)
  | .kwBreak :: ts => some (.node .break_ [.tok .kwBreak], ts)
  | .label :: ts => do
    let (n, ts) ← nameP ts
    let ts ← expect .label ts
    some (.node .label [.tok .label, n, .tok .label], ts)
  | .kwGoto :: ts => do
    let (n, ts) ← nameP ts
    some (.node .goTo [.tok .kwGoto, n], ts)
  | .kwDo :: ts => do
    let (b, ts) ← optBlock rec ts
    let ts ← expect .kwEnd ts
    some (.node (if b.isEmpty then .doEnd else .doBEnd) (.tok .kwDo :: b ++ [.tok .kwEnd]), ts)
  | .kwWhile :: ts => do
    let (e, ts) ← one (rec (.nt .opExp) ts)
    let ts ← expect .kwDo ts
    let (b, ts) ← optBlock rec ts
    let ts ← expect .kwEnd ts
    some (.node (if b.isEmpty then .whileDo else .whileDoB)
      ([.tok .kwWhile, e, .tok .kwDo] ++ b ++ [.tok .kwEnd]), ts)
  | _ => none

/-- `if`, src/parser/lua_syntax.lalrpop:156-199. -/
def ifP (ts : List Token) : Option (C × List Token) := do
  let ts ← expect .kwIf ts
  let (e, ts) ← one (rec (.nt .opExp) ts)
  let ts ← expect .kwThen ts
  let (b, ts) ← optBlock rec ts
  let (v, ts) ← rec .elseIfs ts
  let vn : List C := if v.isEmpty then [] else [.node .elseIfThenVec v]
  if ts.head? = some .kwElse then
    let ts ← expect .kwElse ts
    let (b2, ts) ← optBlock rec ts
    let ts ← expect .kwEnd ts
    some (.node (ifTag (!b.isEmpty) (!v.isEmpty) true (!b2.isEmpty))
      ([.tok .kwIf, e, .tok .kwThen] ++ b ++ vn ++ (.tok .kwElse :: b2 ++ [.tok .kwEnd])), ts)
  else
    let ts ← expect .kwEnd ts
    some (.node (ifTag (!b.isEmpty) (!v.isEmpty) false false)
      ([.tok .kwIf, e, .tok .kwThen] ++ b ++ vn ++ [.tok .kwEnd]), ts)

/-- `ElseIfThen*`, src/parser/lua_syntax.lalrpop:244-253. -/
def elseIfsP (ts : List Token) : PRes :=
  if ts.head? = some .kwElseIf then do
    let ts ← expect .kwElseIf ts
    let (e, ts) ← one (rec (.nt .opExp) ts)
    let ts ← expect .kwThen ts
    let (b, ts) ← optBlock rec ts
    let (vs, ts) ← rec .elseIfs ts
    some (.node (if b.isEmpty then .elseIfThen else .elseIfThenB)
      ([.tok .kwElseIf, e, .tok .kwThen] ++ b) :: vs, ts)
  else some ([], ts)

/-- `for`, src/parser/lua_syntax.lalrpop:202-233. -/
def forP (ts : List Token) : Option (C × List Token) := do
  let ts ← expect .kwFor ts
  let (n, ts) ← nameP ts
  if ts.head? = some .equalsSign then
    let ts ← expect .equalsSign ts
    let (e1, ts) ← one (rec (.nt .opExp) ts)
    let ts ← expect .comma ts
    let (e2, ts) ← one (rec (.nt .opExp) ts)
    if ts.head? = some .comma then
      let ts ← expect .comma ts
      let (e3, ts) ← one (rec (.nt .opExp) ts)
      let ts ← expect .kwDo ts
      let (b, ts) ← optBlock rec ts
      let ts ← expect .kwEnd ts
      some (.node (if b.isEmpty then .forIntStep else .forIntStepB)
        ([.tok .kwFor, n, .tok .equalsSign, e1, .tok .comma, e2, .tok .comma, e3, .tok .kwDo] ++ b ++
          [.tok .kwEnd]), ts)
    else
      let ts ← expect .kwDo ts
      let (b, ts) ← optBlock rec ts
      let ts ← expect .kwEnd ts
      some (.node (if b.isEmpty then .forInt else .forIntB)
        ([.tok .kwFor, n, .tok .equalsSign, e1, .tok .comma, e2, .tok .kwDo] ++ b ++
          [.tok .kwEnd]), ts)
  else
    let (ns, ts) ← rec (.sepTail .name .comma) ts
    let ts ← expect .kwIn ts
    let (e, ts) ← one (rec (.nt .expList) ts)
    let ts ← expect .kwDo ts
    let (b, ts) ← optBlock rec ts
    let ts ← expect .kwEnd ts
    some (.node (if b.isEmpty then .forRange else .forRangeB)
      ([.tok .kwFor, .node (.nameList []) (n :: ns), .tok .kwIn, e, .tok .kwDo] ++ b ++
        [.tok .kwEnd]), ts)

/-- `FuncName`, src/parser/lua_syntax.lalrpop:271-276. -/
def funcNameP (ts : List Token) : Option (C × List Token) := do
  let (n, ts) ← nameP ts
  let (ns, ts) ← rec (.sepTail .name .period) ts
  if ts.head? = some .colon then
    let ts ← expect .colon ts
    let (m, ts) ← nameP ts
    some (.node .funcNameSelf [.node (.funcNameItems []) (n :: ns), .tok .colon, m], ts)
  else some (.node (.funcName []) (n :: ns), ts)

/-- `function` as a statement, src/parser/lua_syntax.lalrpop:236-237. -/
def funcDeclP (ts : List Token) : Option (C × List Token) := do
  let ts ← expect .kwFunction ts
  let (n, ts) ← one (rec (.nt .funcName) ts)
  let (b, ts) ← one (rec (.nt .funcBody) ts)
  some (.node .funcDecl [.tok .kwFunction, n, b], ts)

/-- `FuncBody`, src/parser/lua_syntax.lalrpop:402-411. -/
def funcBodyP (ts : List Token) : Option (C × List Token) := do
  let ts ← expect .openRound ts
  if ts.head? = some .closeRound then
    let ts ← expect .closeRound ts
    let (b, ts) ← optBlock rec ts
    let ts ← expect .kwEnd ts
    some (.node (if b.isEmpty then .funcBody else .funcBodyB)
      ([.tok .openRound, .tok .closeRound] ++ b ++ [.tok .kwEnd]), ts)
  else
    let (p, ts) ← one (rec (.nt .par) ts)
    let (ps, ts) ← rec (.sepTail .par .comma) ts
    let ts ← expect .closeRound ts
    let (b, ts) ← optBlock rec ts
    let ts ← expect .kwEnd ts
    some (.node (if b.isEmpty then .funcPBody else .funcPBodyB)
      ([.tok .openRound, .node (.parList []) (p :: ps), .tok .closeRound] ++ b ++ [.tok .kwEnd]), ts)

/-- A statement, without a following statement that starts with a parenthesis. -/
def statCoreP (ts : List Token) : Option (C × List Token) :=
  match ts.head? with
  | some (.variable _) => nameStatP rec ts
  | some .kwRepeat => repeatP rec ts
  | some .kwLocal => localP rec ts
  | some .kwIf => ifP rec ts
  | some .kwFor => forP rec ts
  | some .kwFunction => funcDeclP rec ts
  | _ => simpleStatP rec ts

/-- `Stat`, src/parser/lua_syntax.lalrpop:106-115. -/
def statP (ts : List Token) : Option (C × List Token) := do
  let (c, ts) ← statCoreP rec ts
  if isNoPar c ∧ ts.head? = some .openRound then
    let (d, ts) ← one (rec (.nt .statStartsMayEndsPar) ts)
    some (.node .statementList [c, d], ts)
  else some (c, ts)

/-- `RetStat`, src/parser/lua_syntax.lalrpop:255-264. -/
def retStatP (ts : List Token) : Option (C × List Token) := do
  let ts ← expect .kwReturn ts
  if (ts.head?.map startsExp) = some true then
    let (e, ts) ← one (rec (.nt .expList) ts)
    if ts.head? = some .semicolon then
      let ts ← expect .semicolon ts
      some (.node .retStatExprComma [.tok .kwReturn, e, .tok .semicolon], ts)
    else some (.node .retStatExpr [.tok .kwReturn, e], ts)
  else if ts.head? = some .semicolon then
    let ts ← expect .semicolon ts
    some (.node .retStatNoneComma [.tok .kwReturn, .tok .semicolon], ts)
  else some (.node .retStatNone [.tok .kwReturn], ts)

/-- `(tok nt)*`. -/
def sepTailP (n : NT) (tok : Token) (ts : List Token) : PRes :=
  if ts.head? = some tok then do
    let ts ← expect tok ts
    let (c, ts) ← one (rec (.nt n) ts)
    let (cs, ts) ← rec (.sepTail n tok) ts
    some (.tok tok :: c :: cs, ts)
  else some ([], ts)

/-- `ExpList`, src/parser/lua_syntax.lalrpop:372-374. -/
def expListP (ts : List Token) : Option (C × List Token) := do
  let (e, ts) ← one (rec (.nt .opExp) ts)
  let (es, ts) ← rec (.sepTail .opExp .comma) ts
  some (.node (.expList []) (e :: es), ts)

/-- `VarSuffix*`. -/
def suffixesP (ts : List Token) : PRes :=
  match ts with
  | t :: _ =>
    if startsSuffix t then do
      let (s, ts) ← one (rec (.nt .varSuffix) ts)
      let (ss, ts) ← rec .suffixes ts
      some (s :: ss, ts)
    else some ([], ts)
  | [] => some ([], ts)

/-- `StringLiteral`, src/parser/lua_syntax.lalrpop:554-558. -/
def stringP : List Token → Option (C × List Token)
  | .normalString s :: ts => some (.node (.normalStringLiteral s) [.tok (.normalString s)], ts)
  | .charString s :: ts => some (.node (.charStringLiteral s) [.tok (.charString s)], ts)
  | .multiLineString l s :: ts =>
    some (.node (.multiLineStringLiteral l s) [.tok (.multiLineString l s)], ts)
  | _ => none

/-- `TableConstructor`, src/parser/lua_syntax.lalrpop:422-427. -/
def tableP (ts : List Token) : Option (C × List Token) := do
  let ts ← expect .openCurly ts
  if ts.head? = some .closeCurly then
    let ts ← expect .closeCurly ts
    some (.node .tableConstructorEmpty [.tok .openCurly, .tok .closeCurly], ts)
  else
    let (fs, ts) ← rec .fieldItems ts
    let ts ← expect .closeCurly ts
    some (.node (.tableConstructor none none)
      [.tok .openCurly, .node (.fields [] none none) fs, .tok .closeCurly], ts)

/-- `TSepEndList<Field, FieldSep>`. -/
def fieldItemsP (ts : List Token) : PRes := do
  let (f, ts) ← one (rec (.nt .field) ts)
  match ts with
  | t :: ts1 =>
    if isFieldSep t then
      if ts1.head? = some .closeCurly then some ([f, .tok t], ts1)
      else
        let (fs, ts2) ← rec .fieldItems ts1
        some (f :: .tok t :: fs, ts2)
    else some ([f], ts)
  | [] => some ([f], ts)

/-- `Field`, src/parser/lua_syntax.lalrpop:433-439. -/
def fieldP (ts : List Token) : Option (C × List Token) :=
  match ts with
  | .openSquare :: ts => do
    let (e1, ts) ← one (rec (.nt .opExp) ts)
    let ts ← expect .closeSquare ts
    let ts ← expect .equalsSign ts
    let (e2, ts) ← one (rec (.nt .opExp) ts)
    some (.node .fieldNamedBracket
      [.tok .openSquare, e1, .tok .closeSquare, .tok .equalsSign, e2], ts)
  | .variable s :: .equalsSign :: ts => do
    let (e, ts) ← one (rec (.nt .opExp) ts)
    some (.node .fieldNamed [.node (.name s) [.tok (.variable s)], .tok .equalsSign, e], ts)
  | ts => do
    let (e, ts) ← one (rec (.nt .opExp) ts)
    some (.node .fieldSequential [e], ts)

/-- `Args`, src/parser/lua_syntax.lalrpop:388-395. -/
def argsP (ts : List Token) : Option (C × List Token) :=
  match ts with
  | .openRound :: ts =>
    if ts.head? = some .closeRound then do
      let ts ← expect .closeRound ts
      some (.node .argsRoundBracketsEmpty [.tok .openRound, .tok .closeRound], ts)
    else do
      let (e, ts) ← one (rec (.nt .expList) ts)
      let ts ← expect .closeRound ts
      some (.node .argsRoundBrackets [.tok .openRound, e, .tok .closeRound], ts)
  | .openCurly :: ts => one (rec (.nt .tableConstructor) (.openCurly :: ts))
  | ts => stringP ts

/-- `VarSuffix`, src/parser/lua_syntax.lalrpop:356-364. -/
def varSuffixP (ts : List Token) : Option (C × List Token) :=
  match ts with
  | .openSquare :: ts => do
    let (e, ts) ← one (rec (.nt .opExp) ts)
    let ts ← expect .closeSquare ts
    some (.node .tableIndex [.tok .openSquare, e, .tok .closeSquare], ts)
  | .period :: ts => do
    let (n, ts) ← nameP ts
    some (.node .tableMember [.tok .period, n], ts)
  | .colon :: ts => do
    let (n, ts) ← nameP ts
    let (a, ts) ← one (rec (.nt .args) ts)
    some (.node .fnMethodCall [.tok .colon, n, a], ts)
  | ts => one (rec (.nt .args) ts)

/-- `PrefixMayStartsMayEndsPar`, src/parser/lua_syntax.lalrpop:326-330, 337-343. -/
def prefixP (ts : List Token) : Option (C × List Token) :=
  match ts with
  | .openRound :: ts => do
    let (e, ts) ← one (rec (.nt .opExp) ts)
    let ts ← expect .closeRound ts
    let (ss, ts) ← rec .suffixes ts
    if ss.isEmpty then some (.node .roundBrackets [.tok .openRound, e, .tok .closeRound], ts)
    else some (.node .varRoundSuffix
      [.tok .openRound, e, .tok .closeRound, .node .varSuffixList ss], ts)
  | ts => do
    let (n, ts) ← nameP ts
    let (ss, ts) ← rec .suffixes ts
    if ss.isEmpty then some (n, ts) else some (.node .var [n, .node .varSuffixList ss], ts)

/-- `VarMayExp`, src/parser/lua_syntax.lalrpop:337-343. -/
def varMayExpP (ts : List Token) : Option (C × List Token) := do
  let (c, ts) ← one (rec (.nt .prefixMayStartsMayEndsPar) ts)
  match c with
  | .node .roundBrackets _ => none
  | c => some (c, ts)

/-- `Exp`, src/parser/lua_syntax.lalrpop:376-386. -/
def expP (ts : List Token) : Option (C × List Token) :=
  match ts with
  | .kwNil :: ts => some (.node .nil_ [.tok .kwNil], ts)
  | .kwFalse :: ts => some (.node .false_ [.tok .kwFalse], ts)
  | .kwTrue :: ts => some (.node .true_ [.tok .kwTrue], ts)
  | .numeral s :: ts => some (.node (.numeral s) [.tok (.numeral s)], ts)
  | .varArg :: ts => some (.node .varArg [.tok .varArg], ts)
  | .kwFunction :: ts => do
    let (b, ts) ← one (rec (.nt .funcBody) ts)
    some (.node .functionDef [.tok .kwFunction, b], ts)
  | .openCurly :: ts => one (rec (.nt .tableConstructor) (.openCurly :: ts))
  | .variable s :: ts => one (rec (.nt .prefixMayStartsMayEndsPar) (.variable s :: ts))
  | .openRound :: ts => one (rec (.nt .prefixMayStartsMayEndsPar) (.openRound :: ts))
  | ts => stringP ts

/-- `Par`, src/parser/lua_syntax.lalrpop:417-420. -/
def parP : List Token → Option (C × List Token)
  | .varArg :: ts => some (.node .varArg [.tok .varArg], ts)
  | ts => nameP ts

/-- The levels `Op0` to `Op11`, src/parser/lua_syntax.lalrpop:450-548. -/
def opP (k : Nat) (ts : List Token) : Option (C × List Token) :=
  if k = 10 then
    match ts with
    | .opLogicalNot :: ts => do
      let (e, ts) ← one (rec (.nt (.op 10)) ts)
      some (.node .unaryNot [.tok .opLogicalNot, e], ts)
    | .opLength :: ts => do
      let (e, ts) ← one (rec (.nt (.op 11)) ts)
      some (.node (.unaryOp L!"#") [.tok .opLength, e], ts)
    | .minus :: ts => do
      let (e, ts) ← one (rec (.nt (.op 11)) ts)
      some (.node (.unaryOp L!"-") [.tok .minus, e], ts)
    | .tilde :: ts => do
      let (e, ts) ← one (rec (.nt (.op 11)) ts)
      some (.node (.unaryOp L!"~") [.tok .tilde, e], ts)
    | ts => one (rec (.nt (.op 11)) ts)
  else if k < 12 then do
    let (e, ts) ← one (rec (.nt (nextOp k)) ts)
    one (rec (.opTail k e) ts)
  else none

/-- The operators of level `k` to the right of `acc`; all of them associate to the left. -/
def opTailP (k : Nat) (acc : C) (ts : List Token) : Option (C × List Token) :=
  match ts with
  | t :: ts1 =>
    match binOp t with
    | some (j, s) =>
      if j = k then do
        let (e, ts2) ← one (rec (.nt (nextOp k)) ts1)
        one (rec (.opTail k (.node (.binaryOp s) [acc, .tok t, e])) ts2)
      else some (acc, ts)
    | none => some (acc, ts)
  | [] => some (acc, ts)

/-- A single tree as result. -/
def single1 (r : Option (C × List Token)) : PRes := r.map fun p => ([p.1], p.2)

/-- One level of the recursion. -/
def parseStep : Req → List Token → PRes
  | .nt .block, ts => single1 (blockP rec ts)
  | .nt .stats, ts => single1 (statsP rec ts)
  | .nt .stat, ts => single1 (statP rec ts)
  | .nt .statStartsMayEndsPar, ts => single1 (parStatP rec ts)
  | .nt .retStat, ts => single1 (retStatP rec ts)
  | .nt .funcName, ts => single1 (funcNameP rec ts)
  | .nt .funcBody, ts => single1 (funcBodyP rec ts)
  | .nt .expList, ts => single1 (expListP rec ts)
  | .nt .tableConstructor, ts => single1 (tableP rec ts)
  | .nt .field, ts => single1 (fieldP rec ts)
  | .nt .args, ts => single1 (argsP rec ts)
  | .nt .varSuffix, ts => single1 (varSuffixP rec ts)
  | .nt .prefixMayStartsMayEndsPar, ts => single1 (prefixP rec ts)
  | .nt .varMayExp, ts => single1 (varMayExpP rec ts)
  | .nt .exp, ts => single1 (expP rec ts)
  | .nt .par, ts => single1 (parP ts)
  | .nt .name, ts => single1 (nameP ts)
  | .nt .opExp, ts => rec (.nt (.op 0)) ts
  | .nt (.op k), ts => single1 (opP rec k ts)
  | .nt _, _ => none
  | .statList, ts => statListP rec ts
  | .elseIfs, ts => elseIfsP rec ts
  | .suffixes, ts => suffixesP rec ts
  | .sepTail n tok, ts => sepTailP rec n tok ts
  | .fieldItems, ts => fieldItemsP rec ts
  | .opTail k acc, ts => single1 (opTailP rec k acc ts)

end

/-- The parser, with a bound on the depth of the recursion. -/
def parseReq : Nat → Req → List Token → PRes
  | 0, _, _ => none
  | fuel + 1, r, ts => parseStep (parseReq fuel) r ts

/-- A bound that is always large enough (`Verif.Proofs.ParserComplete`). -/
def parseFuel (ts : List Token) : Nat := 32 * ts.length + 32

/-- Parse a block. -/
def parseBlock (ts : List Token) : Option (C × List Token) :=
  one (parseReq (parseFuel ts) (.nt .block) ts)

/-- The productions of `Chunk`, src/parser/lua_syntax.lalrpop:62-76, over the token sequence. The
result is an optional shebang line and an optional block. -/
def parseChunk (ts : List Token) : Option (Option C × Option C) :=
  match ts with
  | .sheBang s :: ts =>
    let sb : C := .node (.sheBang s) [.tok (.sheBang s)]
    if ts = [.eof] then some (some sb, none)
    else
      match parseBlock ts with
      | some (b, [.eof]) => some (some sb, some b)
      | _ => none
  | ts =>
    if ts = [.eof] then some (none, none)
    else
      match parseBlock ts with
      | some (b, [.eof]) => some (none, some b)
      | _ => none

mutual
/-- Put the tokens with positions on the leaves. -/
def attach : C → List TokL → Cst TokL × List TokL
  | .tok t, [] => (.tok ⟨0, t, 0⟩, [])
  | .tok _, p :: ps => (.tok p, ps)
  | .node tag cs, ps => let r := attachAll cs ps; (.node tag r.1, r.2)
/-- `attach` for a sequence of trees. -/
def attachAll : List C → List TokL → List (Cst TokL) × List TokL
  | [], ps => ([], ps)
  | c :: cs, ps =>
    let r := attach c ps
    let rs := attachAll cs r.2
    (r.1 :: rs.1, rs.2)
end

/-- A symbol on the right-hand side of a production that has been recognised: a terminal or a node. -/
inductive Part where
  | tok (t : TokL)
  | node (n : Node)

/-- Its span. -/
def Part.span : Part → Loc
  | .tok t => ⟨t.l, t.r⟩
  | .node n => n.span

/-- The text of a separator, `Display for Token`, src/parser/lua_lexer.rs:78-152 (only the
separators). -/
def sepText : Token → Str
  | .comma => L!","
  | .semicolon => L!";"
  | .period => L!"."
  | _ => []

def Part.node? : Part → Option Node
  | .tok _ => none
  | .node n => some n

/-- The gaps between consecutive parts, `Loc(l_i, r_i)` of the actions. -/
def gapsOf : List Part → List Loc
  | p :: q :: ps => ⟨p.span.r, q.span.l⟩ :: gapsOf (q :: ps)
  | _ => []

/-- Gaps and separators of `TSepList` and `TSepEndList` (src/parser/lua_syntax.lalrpop:23-59); `pre` is
the gap before the first item. -/
def sepLocs : Loc → List Part → List Loc × List Str
  | _, [] => ([], [])
  | pre, [p] => ([pre, ⟨p.span.r, p.span.r⟩], [[]])
  | pre, p :: .tok s :: ps =>
    let next : Loc := match ps with
      | q :: _ => ⟨s.r, q.span.l⟩
      | [] => ⟨s.r, s.r⟩
    let x := sepLocs next ps
    (pre :: ⟨p.span.r, s.l⟩ :: x.1, sepText s.tok :: x.2)
  | pre, p :: .node n :: ps =>
    let x := sepLocs ⟨p.span.r, n.span.l⟩ (.node n :: ps)
    (pre :: ⟨p.span.r, n.span.l⟩ :: x.1, [] :: x.2)

/-- Put the separators into the tag of a separated list. -/
def Tag.setSeps (seps : List Str) : Tag → Tag
  | .fields _ iv s => .fields seps iv s
  | .expList _ => .expList seps
  | .nameList _ => .nameList seps
  | .parList _ => .parList seps
  | .varList _ => .varList seps
  | .funcName _ => .funcName seps
  | .funcNameItems _ => .funcNameItems seps
  | t => t

/-- The action of a production: `Node::tag(Loc(ls, rs), [gaps], children)`. -/
def buildNode (tag : Tag) (ps : List Part) : Node :=
  let l := (ps.head?.map (·.span.l)).getD 0
  let r := (ps.getLast?.map (·.span.r)).getD 0
  let kids := ps.filterMap Part.node?
  match tag.seps with
  | some _ =>
    let x := sepLocs ⟨l, l⟩ ps
    .mk (tag.setSeps x.2) ⟨l, r⟩ x.1 kids
  | none =>
    if tag.isPlainList then .mk tag ⟨l, r⟩ (⟨l, l⟩ :: gapsOf ps) kids
    else .mk tag ⟨l, r⟩ (gapsOf ps) kids

mutual
/-- The part for a derivation tree with positions. -/
def placeC : Cst TokL → Part
  | .tok t => .tok t
  | .node tag cs => .node (buildNode tag (placeAll cs))
/-- The parts for a sequence of trees. -/
def placeAll : List (Cst TokL) → List Part
  | [] => []
  | c :: cs => placeC c :: placeAll cs
end

/-- The node for a derivation tree whose root is a node. -/
def placeNode (c : Cst TokL) : Node := ((placeC c).node?).getD (.mk .statementList ⟨0, 0⟩ [] [])

/-- The actions of `Chunk`, src/parser/lua_syntax.lalrpop:62-76. `eof` is the position of the end of
the text. -/
def placeChunk (eof : Nat) (toks : List TokL) : Option C → Option C → Node
  | none, none => .mk .chunk ⟨0, eof⟩ [⟨0, eof⟩, ⟨eof, eof⟩] [.mk .statementList ⟨eof, eof⟩ [] []]
  | some sb, none =>
    let n := placeNode (attach sb toks).1
    .mk .chunk ⟨0, n.span.l⟩ [⟨0, n.span.l⟩, ⟨n.span.r, eof⟩] [n]
  | none, some b =>
    let n := placeNode (attach b toks).1
    .mk .chunk ⟨0, n.span.l⟩ [⟨0, n.span.l⟩, ⟨n.span.r, eof⟩] [n]
  | some sb, some b =>
    let r := attach sb toks
    let n := placeNode r.1
    let m := placeNode (attach b r.2).1
    .mk .sheBangChunk ⟨0, n.span.l⟩
      [⟨0, n.span.l⟩, ⟨n.span.r, m.span.l⟩, ⟨m.span.r, eof⟩] [n, m]

/-- `parse_lua`, src/parser/mod.rs:25-28; `none` is a parse error (its message is not modelled). -/
def parseLua (src : Str) : Option Node := do
  let toks ← lexLua src
  let (sb, b) ← parseChunk (toks.map (·.tok))
  some (placeChunk src.length toks sb b)

end Luafmt
