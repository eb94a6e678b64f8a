import Verif.Model.LuaLexer

/-
How tokens and gaps are spelled, and when a text is a sequence of gaps and tokens. This does not use
the scanning functions of the model; only the type `Token` and the character classes are shared.
-/
namespace Luafmt.Spec

/-- `]==]` with `n` equals signs. -/
def closer (n : Nat) : Str := ']' :: (List.replicate n '=' ++ [']'])

/-- `[==[` with `n` equals signs. -/
def opener (n : Nat) : Str := '[' :: (List.replicate n '=' ++ ['['])

/-- The spelling of a token in Lua. A shebang line includes its line break. -/
def spell : Token → Str
  | .opExponentiation => L!"^" | .opLogicalNot => L!"not" | .opLength => L!"#"
  | .opMultiplication => L!"*" | .opDivision => L!"/" | .opFloorDivision => L!"//"
  | .opModulo => L!"%" | .opAddition => L!"+" | .minus => L!"-" | .opConcatenation => L!".."
  | .opLeftShift => L!"<<" | .opRightShift => L!">>" | .opBitwiseAnd => L!"&" | .tilde => L!"~"
  | .opBitwiseOr => L!"|" | .opEquality => L!"==" | .opInequality => L!"~=" | .opLessThan => L!"<"
  | .opGreaterThan => L!">" | .opLessOrEqual => L!"<=" | .opGreaterOrEqual => L!">="
  | .opLogicalAnd => L!"and" | .opLogicalOr => L!"or"
  | .variable s => s | .numeral s => s
  | .normalString s => '"' :: (s ++ ['"'])
  | .charString s => '\'' :: (s ++ ['\''])
  | .multiLineString n s => opener n ++ s ++ closer n
  | .semicolon => L!";" | .comma => L!"," | .colon => L!":" | .label => L!"::"
  | .equalsSign => L!"=" | .period => L!"." | .openRound => L!"(" | .closeRound => L!")"
  | .openSquare => L!"[" | .closeSquare => L!"]" | .openCurly => L!"{" | .closeCurly => L!"}"
  | .kwBreak => L!"break" | .kwDo => L!"do" | .kwElse => L!"else" | .kwElseIf => L!"elseif"
  | .kwEnd => L!"end" | .kwFalse => L!"false" | .kwFor => L!"for" | .kwFunction => L!"function"
  | .kwGoto => L!"goto" | .kwIf => L!"if" | .kwIn => L!"in" | .kwLocal => L!"local"
  | .kwNil => L!"nil" | .kwRepeat => L!"repeat" | .kwReturn => L!"return" | .kwThen => L!"then"
  | .kwTrue => L!"true" | .kwUntil => L!"until" | .varArg => L!"..." | .kwWhile => L!"while"
  | .sheBang s => s ++ ['\n'] | .eof => []

/-- The body of a long bracket of level `n`: no closing bracket of this level starts inside it. The
program does not recognise a closing bracket right behind a backslash (`prev` tells whether the
previous character is one); see C32 for what this means. -/
def LongBody (n : Nat) : Bool → Str → Prop
  | prev, [] => prev = false
  | prev, c :: s => ¬ (prev = false ∧ closer n <+: (c :: s) ++ closer n) ∧ LongBody n (c == '\\') s

/-- The text of a one-line comment: it stays on its line and does not open a long comment. -/
def LineText (t : Str) : Prop := '\n' ∉ t ∧ ∀ n, ¬ opener n <+: t

/-- Blanks and complete comments. -/
inductive Gap : Str → Prop
  | nil : Gap []
  | blank (c : Char) (g : Str) : c = ' ' ∨ c = '\n' ∨ c = '\r' ∨ c = '\t' → Gap g → Gap (c :: g)
  | line (t g : Str) : LineText t → Gap g → Gap ('-' :: '-' :: (t ++ '\n' :: g))
  | long (n : Nat) (b g : Str) : LongBody n false b → Gap g →
      Gap ('-' :: '-' :: (opener n ++ (b ++ (closer n ++ g))))

/-- Blanks and comments at the end of a text, where the last line needs no line break. -/
def FinalGap (g : Str) : Prop := Gap g ∨ ∃ a t, g = a ++ '-' :: '-' :: t ∧ Gap a ∧ LineText t

/-- `Tiles s pos toks`: the text `s`, which starts at position `pos`, is a gap, the first token, a
gap, the second token, and so on up to the end-of-text token, which is preceded by a final gap. Each
token occupies the positions it reports. (A shebang line at the very end may lack its line break.) -/
def Tiles : Str → Nat → List TokL → Prop
  | _, _, [] => False
  | s, pos, t :: ts =>
    (t.tok = .eof ∧ ts = [] ∧ FinalGap s ∧ t.l = pos + s.length ∧ t.r = t.l) ∨
    (∃ g u s', t.tok ≠ .eof ∧ s = g ++ (u ++ s') ∧ Gap g ∧ t.l = pos + g.length ∧ t.r = t.l + u.length ∧
      u ≠ [] ∧ (u = spell t.tok ∨ (∃ x, t.tok = .sheBang x ∧ u = x ∧ s' = [])) ∧ Tiles s' t.r ts)

end Luafmt.Spec
