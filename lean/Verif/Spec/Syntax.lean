import Verif.Spec.Lex
import Verif.Model.Grammar

/-
Programs and syntax trees. This uses the grammar (`Verif.Model.Grammar`) and the type of trees, but not
the parser, the functions that compute positions, or the printer.
-/
namespace Luafmt.Spec

/-! ### Programs -/

/-- The tokens of a program: an optional shebang line, an optional block, the end of the text. -/
def chunkTokens (sb : Option Str) (b : Option (Cst Token)) : List Token :=
  (sb.map Token.sheBang).toList ++ (b.map Cst.yield).getD [] ++ [.eof]

/-- `IsProgram ts sb b`: the tokens `ts` are a program with this shebang line and this derivation tree of
its block. -/
def IsProgram (ts : List Token) (sb : Option Str) (b : Option (Cst Token)) : Prop :=
  (∀ x, b = some x → Derives .block x) ∧ ts = chunkTokens sb b

/-- A text is accepted when its tokens are a program. -/
def Accepted (src : Str) : Prop :=
  ∃ toks sb b, lexLua src = some toks ∧ IsProgram (toks.map TokL.tok) sb b

/-! ### Reading a syntax tree -/

/-- A piece of the source that a tree accounts for: a word or a gap from one position to another. -/
inductive Piece where
  | word (s : Str)
  | gap (l r : Nat)
  deriving DecidableEq, Repr

/-- A word that belongs to a construct. -/
def w (s : Str) : Option Str := some s

/-- A part of a construct that is a construct itself. -/
def sub : Option Str := none

/-- The words and parts of the constructs that have a fixed number of them. -/
def layout : Tag → Option (List (Option Str))
  | .binaryOp op => some [sub, w op, sub]
  | .unaryOp op => some [w op, sub]
  | .unaryNot => some [w L!"not", sub]
  | .var => some [sub, sub]
  | .roundBrackets => some [w L!"(", sub, w L!")"]
  | .argsRoundBrackets => some [w L!"(", sub, w L!")"]
  | .argsRoundBracketsEmpty => some [w L!"(", w L!")"]
  | .tableConstructor _ _ => some [w L!"{", sub, w L!"}"]
  | .tableConstructorEmpty => some [w L!"{", w L!"}"]
  | .fieldNamedBracket => some [w L!"[", sub, w L!"]", w L!"=", sub]
  | .fieldNamed => some [sub, w L!"=", sub]
  | .fieldSequential => some [sub]
  | .tableIndex => some [w L!"[", sub, w L!"]"]
  | .tableMember => some [w L!".", sub]
  | .doEnd => some [w L!"do", w L!"end"]
  | .doBEnd => some [w L!"do", sub, w L!"end"]
  | .varsExprs => some [sub, w L!"=", sub]
  | .varRoundSuffix => some [w L!"(", sub, w L!")", sub]
  | .fnMethodCall => some [w L!":", sub, sub]
  | .functionDef => some [w L!"function", sub]
  | .funcBody => some [w L!"(", w L!")", w L!"end"]
  | .funcBodyB => some [w L!"(", w L!")", sub, w L!"end"]
  | .funcPBody => some [w L!"(", sub, w L!")", w L!"end"]
  | .funcPBodyB => some [w L!"(", sub, w L!")", sub, w L!"end"]
  | .funcNameSelf => some [sub, w L!":", sub]
  | .funcDecl => some [w L!"function", sub, sub]
  | .localFuncDecl => some [w L!"local", w L!"function", sub, sub]
  | .localNames => some [w L!"local", sub]
  | .localNamesExprs => some [w L!"local", sub, w L!"=", sub]
  | .ifThen => some [w L!"if", sub, w L!"then", w L!"end"]
  | .ifThenB => some [w L!"if", sub, w L!"then", sub, w L!"end"]
  | .ifThenElse => some [w L!"if", sub, w L!"then", w L!"else", w L!"end"]
  | .ifThenBElse => some [w L!"if", sub, w L!"then", sub, w L!"else", w L!"end"]
  | .ifThenElseB => some [w L!"if", sub, w L!"then", w L!"else", sub, w L!"end"]
  | .ifThenBElseB => some [w L!"if", sub, w L!"then", sub, w L!"else", sub, w L!"end"]
  | .ifThenElseIf => some [w L!"if", sub, w L!"then", sub, w L!"end"]
  | .ifThenBElseIf => some [w L!"if", sub, w L!"then", sub, sub, w L!"end"]
  | .ifThenElseIfElse => some [w L!"if", sub, w L!"then", sub, w L!"else", w L!"end"]
  | .ifThenBElseIfElse => some [w L!"if", sub, w L!"then", sub, sub, w L!"else", w L!"end"]
  | .ifThenElseIfElseB => some [w L!"if", sub, w L!"then", sub, w L!"else", sub, w L!"end"]
  | .ifThenBElseIfElseB => some [w L!"if", sub, w L!"then", sub, sub, w L!"else", sub, w L!"end"]
  | .elseIfThen => some [w L!"elseif", sub, w L!"then"]
  | .elseIfThenB => some [w L!"elseif", sub, w L!"then", sub]
  | .label => some [w L!"::", sub, w L!"::"]
  | .goTo => some [w L!"goto", sub]
  | .whileDo => some [w L!"while", sub, w L!"do", w L!"end"]
  | .whileDoB => some [w L!"while", sub, w L!"do", sub, w L!"end"]
  | .repeatUntil => some [w L!"repeat", w L!"until", sub]
  | .repeatBUntil => some [w L!"repeat", sub, w L!"until", sub]
  | .forInt => some [w L!"for", sub, w L!"=", sub, w L!",", sub, w L!"do", w L!"end"]
  | .forIntB => some [w L!"for", sub, w L!"=", sub, w L!",", sub, w L!"do", sub, w L!"end"]
  | .forIntStep => some [w L!"for", sub, w L!"=", sub, w L!",", sub, w L!",", sub, w L!"do", w L!"end"]
  | .forIntStepB => some [w L!"for", sub, w L!"=", sub, w L!",", sub, w L!",", sub, w L!"do", sub, w L!"end"]
  | .forRange => some [w L!"for", sub, w L!"in", sub, w L!"do", w L!"end"]
  | .forRangeB => some [w L!"for", sub, w L!"in", sub, w L!"do", sub, w L!"end"]
  | .retStatExpr => some [w L!"return", sub]
  | .retStatNoneComma => some [w L!"return", w L!";"]
  | .retStatExprComma => some [w L!"return", sub, w L!";"]
  | .statsRetStat => some [sub, sub]
  | .chunk => some [w [], sub, w []]
  | .sheBangChunk => some [w [], sub, sub, w []]
  | _ => none

/-- Constructs that are one token. -/
def leafToken : Tag → Option Token
  | .nil_ => some .kwNil
  | .false_ => some .kwFalse
  | .true_ => some .kwTrue
  | .varArg => some .varArg
  | .break_ => some .kwBreak
  | .numeral s => some (.numeral s)
  | .normalStringLiteral s => some (.normalString s)
  | .charStringLiteral s => some (.charString s)
  | .multiLineStringLiteral level s => some (.multiLineString level s)
  | .name s => some (.variable s)
  | .retStatNone => some .kwReturn
  | .semicolon => some .semicolon
  | .sheBang s => some (.sheBang s)
  | _ => none

/-- The separators that a separated list records. -/
def separators : Tag → Option (List Str)
  | .fields ss _ _ | .expList ss | .nameList ss | .parList ss | .varList ss | .funcName ss
  | .funcNameItems ss => some ss
  | _ => none

/-- A word, if there is one. -/
def wordPiece (s : Str) : List Piece := if s = [] then [] else [.word s]

/-- The gap with number `i`. -/
def gapPiece (locs : List Loc) (i : Nat) : List Piece :=
  [.gap ((locs[i]?.getD ⟨0, 0⟩).l) ((locs[i]?.getD ⟨0, 0⟩).r)]

/-- The pieces of a construct with a fixed layout, from gap number `i` and part number `k` on: words and
parts in order, with a gap between each two of them. -/
def fixedPieces (locs : List Loc) (kids : List (List Piece)) : Nat → Nat → List (Option Str) → List Piece
  | _, _, [] => []
  | i, k, some s :: ps => wordPiece s ++ (if ps = [] then [] else gapPiece locs i) ++
      fixedPieces locs kids (i + 1) k ps
  | i, k, none :: ps => kids[k]?.getD [] ++ (if ps = [] then [] else gapPiece locs i) ++
      fixedPieces locs kids (i + 1) (k + 1) ps

/-- The pieces of a separated list: for each item a gap, the item, a gap, the separator (the last one may
be empty). -/
def sepPieces : List Loc → List (List Piece) → List Str → List Piece
  | l :: l' :: ls, k :: ks, s :: ss =>
    .gap l.l l.r :: (k ++ (.gap l'.l l'.r :: (wordPiece s ++ sepPieces ls ks ss)))
  | _, _, _ => []

/-- The pieces of a list without separators: for each item a gap and the item. -/
def listPieces : List Loc → List (List Piece) → List Piece
  | l :: ls, k :: ks => .gap l.l l.r :: (k ++ listPieces ls ks)
  | _, _ => []

/-- The pieces of a construct. -/
def piecesOf (tag : Tag) (locs : List Loc) (kids : List (List Piece)) : List Piece :=
  match leafToken tag with
  | some t => wordPiece (spell t)
  | none =>
    match layout tag with
    | some ps => fixedPieces locs kids 0 0 ps
    | none =>
      match separators tag with
      | some ss => sepPieces locs kids ss
      | none => listPieces locs kids

mutual
/-- Read a tree from left to right. -/
def reading : Node → List Piece
  | .mk tag _ locs kids => piecesOf tag locs (readings kids)
/-- Read each of the trees. -/
def readings : List Node → List (List Piece)
  | [] => []
  | n :: ns => reading n :: readings ns
end

/-- The words of a reading. -/
def wordsOf : List Piece → List Str
  | [] => []
  | .word s :: ps => s :: wordsOf ps
  | .gap _ _ :: ps => wordsOf ps

/-- `Covers src a ps`: the pieces are, in order and without overlap or omission, what `src` consists of
from position `a` on; gaps hold blanks and comments only. (A shebang line at the very end of the text
may lack its line break.) -/
def Covers (src : Str) : Nat → List Piece → Prop
  | a, [] => a = src.length
  | a, .word s :: ps =>
    (s <+: src.drop a ∧ Covers src (a + s.length) ps) ∨
    (s = src.drop a ++ ['\n'] ∧ L!"#!" <+: s ∧ Covers src src.length ps)
  | a, .gap l r :: ps =>
    l = a ∧ a ≤ r ∧ r ≤ src.length ∧ FinalGap ((src.drop a).take (r - a)) ∧
    (r < src.length → Gap ((src.drop a).take (r - a))) ∧ Covers src r ps

/-! ### Config files -/

/-- The text of a token that an option can be set to. -/
def literalText : Token → Option Str
  | .numeral s | .normalString s | .charString s => some s
  | .kwTrue => some L!"true"
  | .kwFalse => some L!"false"
  | _ => none

mutual
/-- The statements of a block, with nested lists of statements (never the blocks inside a statement)
flattened. -/
def topStatements : Cst Token → List (Cst Token)
  | .node .statementList cs => topStatementsAll cs
  | c => [c]
/-- The statements of several trees, in order. -/
def topStatementsAll : List (Cst Token) → List (Cst Token)
  | [] => []
  | c :: cs => topStatements c ++ topStatementsAll cs
end

/-- The option and the value of a statement of the form `name = literal`. -/
def simpleAssignment : List Token → Option (Str × Str)
  | [.variable n, .equalsSign, t] => (literalText t).map fun v => (n, v)
  | _ => none

/-- The first variable and the first value of an assignment, when they are a name and a literal. -/
def firstAssignment : Cst Token → Option (Str × Str)
  | .node .varsExprs [.node _ (v :: _), _, .node _ (e :: _)] =>
    match v.yield, e.yield with
    | [.variable n], [t] => (literalText t).map fun v => (n, v)
    | _, _ => none
  | _ => none

/-- In a statement that is an assignment, neither side has a comma between its parts. -/
def OneValue (s : Cst Token) : Prop :=
  ∀ vars op exprs, s = .node .varsExprs [vars, op, exprs] →
    ∀ tag parts, (vars = .node tag parts ∨ exprs = .node tag parts) → .tok .comma ∉ parts

/-- A block that ends in `return` after other statements. -/
def ReturnsAfter : Cst Token → Prop
  | .node .statsRetStat _ => True
  | _ => False

end Luafmt.Spec
