import Verif.Spec.Lex
import Verif.Spec.LuaString
import Verif.Model.Config

/-
A source text as a sequence of elements (tokens and comments) with blanks between them, and what the
options may do to this sequence. Nothing here mentions syntax trees, gaps or the printer.
-/
namespace Luafmt.Spec

/-- The blank characters of the program. -/
def IsBlank (ch : Char) : Prop := ch = ' ' ∨ ch = '\n' ∨ ch = '\r' ∨ ch = '\t'

instance (ch : Char) : Decidable (IsBlank ch) := inferInstanceAs (Decidable (_ ∨ _))

/-- A blank text. -/
def Blank (s : Str) : Prop := ∀ ch ∈ s, IsBlank ch

instance (s : Str) : Decidable (Blank s) := inferInstanceAs (Decidable (∀ ch ∈ s, IsBlank ch))

/-- A token, a one-line comment, or a long comment with its level. -/
inductive Elem where
  | tok (t : Token)
  | line (s : Str)
  | long (n : Nat) (s : Str)
  deriving DecidableEq, Repr

/-- How an element is written. A one-line comment includes its line break. -/
def Elem.text : Elem → Str
  | .tok t => spell t
  | .line s => '-' :: '-' :: (s ++ ['\n'])
  | .long n s => '-' :: '-' :: (opener n ++ s ++ closer n)

/-- Comments whose text is such that they are read as this comment. -/
def Elem.Ok : Elem → Prop
  | .tok t => t ≠ .eof
  | .line s => LineText s
  | .long n s => LongBody n false s

/-- `Text es s`: the text `s` consists of the elements `es` in this order, with blanks between them. -/
inductive Text : List Elem → Str → Prop
  | nil : Text [] []
  | blank {es : List Elem} {ch : Char} {s : Str} : IsBlank ch → Text es s → Text es (ch :: s)
  | elem {e : Elem} {es : List Elem} {s : Str} : e.Ok → Text es s → Text (e :: es) (e.text ++ s)

/-- A comment. -/
def Elem.isComment : Elem → Bool
  | .tok _ => false
  | _ => true

/-- The tokens among the elements. -/
def tokensOf : List Elem → List Token
  | [] => []
  | .tok t :: es => t :: tokensOf es
  | _ :: es => tokensOf es

/-- The comments among the elements. -/
def commentsOf (es : List Elem) : List Elem := es.filter Elem.isComment

/-- Two lists of the same length whose corresponding members are related. -/
inductive Each {α β : Type} (R : α → β → Prop) : List α → List β → Prop
  | nil : Each R [] []
  | cons {a : α} {b : β} {as : List α} {bs : List β} : R a b → Each R as bs → Each R (a :: as) (b :: bs)

/-- The next token closes a table; only comments come before it. -/
def BeforeCurly : List Elem → Prop
  | .tok t :: _ => t = .closeCurly
  | _ :: es => BeforeCurly es
  | [] => False

/-- The tokens that may be written for a token of the source. -/
def TokenRewrite (c : Config) (t t' : Token) : Prop :=
  t' = t ∨
  (∃ s s', t = .charString s ∧ t' = .normalString s' ∧ c.bool .convertCharstringToNormalstring = some true ∧
    ∀ v, literalValue '\'' s = some v → literalValue '"' s' = some v) ∨
  ((t = .comma ∨ t = .semicolon) ∧ (t' = .comma ∨ t' = .semicolon) ∧ c.str .fieldSeparator = some (spell t'))

/-- The comment with the blanks at its ends replaced by the hints for comment texts. (A line comment of blanks only
becomes empty; the blanks at the end of a line comment stay.) -/
def newComment (c : Config) : Elem → Elem
  | .tok t => .tok t
  | .line s => .line (match c.str .hintBeforeOnelineCommentText with
    | none => s
    | some p => if trimStart s = [] then [] else p ++ trimStart s)
  | .long n s => .long n (match c.str .hintBeforeMultilineCommentText, c.str .hintAfterMultilineCommentText with
    | none, none => s
    | some p, none => p ++ trimStart s
    | none, some q => trimEnd s ++ q
    | some p, some q => p ++ trim s ++ q)

/-- The comments that may be written for a comment of the source: of the same kind and level, with a text that
differs at most in the blanks at its ends, and not at all unless an option asks for it; without a line range, exactly
as the hints for comment texts say. -/
def CommentRewrite (c : Config) : Elem → Elem → Prop
  | .line s, .line s' => trim s' = trim s ∧ (c.str .hintBeforeOnelineCommentText = none → s' = s) ∧
      (c.lineRange = none → .line s' = newComment c (.line s))
  | .long n s, .long n' s' => n' = n ∧ trim s' = trim s ∧
      (c.str .hintBeforeMultilineCommentText = none → c.str .hintAfterMultilineCommentText = none → s' = s) ∧
      (c.lineRange = none → .long n' s' = newComment c (.long n s))
  | _, _ => False

/-- `Rewrites c es es'`: what formatting may do to a sequence of elements. -/
inductive Rewrites (c : Config) : List Elem → List Elem → Prop
  | nil : Rewrites c [] []
  | tok {t t' : Token} {es es' : List Elem} : TokenRewrite c t t' → Rewrites c es es' →
      Rewrites c (.tok t :: es) (.tok t' :: es')
  | comment {e e' : Elem} {es es' : List Elem} : c.bool .removeComments ≠ some true → CommentRewrite c e e' →
      Rewrites c es es' → Rewrites c (e :: es) (e' :: es')
  | noComment {e : Elem} {es es' : List Elem} : c.bool .removeComments = some true → e.isComment = true →
      Rewrites c es es' → Rewrites c (e :: es) es'
  /-- with a line range a comment may be left as it is -/
  | kept {e : Elem} {es es' : List Elem} : c.lineRange ≠ none → e.isComment = true →
      Rewrites c es es' → Rewrites c (e :: es) (e :: es')
  /-- a separator after the last field of a table is dropped -/
  | dropSep {t : Token} {es es' : List Elem} : t = .comma ∨ t = .semicolon → BeforeCurly es →
      c.bool .writeTrailingFieldSeparator = some false ∨ c.bool .forceSingleLineTable = some true →
      Rewrites c es es' → Rewrites c (.tok t :: es) es'
  /-- a separator after the last field of a table is added -/
  | addSep {t : Token} {es es' : List Elem} : t = .comma ∨ t = .semicolon → BeforeCurly es →
      c.bool .writeTrailingFieldSeparator = some true → c.str .fieldSeparator = some (spell t) →
      Rewrites c es es' → Rewrites c es (.tok t :: es')

/-- Options whose value is inserted between tokens. -/
def hintOptions : List SOpt :=
  [.hintTableConstructor, .hintBeforeComment, .hintAfterMultilineComment, .indentationString]

/-- The configurations for which the output can be read back: every inserted text is blank (a hint inside a
comment must not be empty and must stay on the line), and the field separator is one of Lua's. -/
structure BlankHints (c : Config) : Prop where
  hints : ∀ o ∈ hintOptions, ∀ s, c.str o = some s → Blank s
  oneline : ∀ s, c.str .hintBeforeOnelineCommentText = some s → s ≠ [] ∧ Blank s ∧ '\n' ∉ s
  multiBefore : ∀ s, c.str .hintBeforeMultilineCommentText = some s → Blank s
  multiAfter : ∀ s, c.str .hintAfterMultilineCommentText = some s → s ≠ [] ∧ Blank s
  sep : ∀ s, c.str .fieldSeparator = some s → s = L!"," ∨ s = L!";"

/-- A numeral that stops in the middle: `0x` without digits, or an exponent without digits. The lexer accepts it,
Lua does not. -/
def UnfinishedNumeral (s : Str) : Prop :=
  s = L!"0x" ∨ (¬ L!"0x" <+: s ∧ (L!"e" <:+ s ∨ L!"E" <:+ s ∨ L!"e-" <:+ s ∨ L!"E-" <:+ s))

/-- Options that remove something between tokens. -/
def Shrinks (c : Config) : Prop :=
  c.bool .removeSpacesBetweenTokens = some true ∨ c.bool .removeComments = some true ∨
  c.bool .removeAllNewlines = some true ∨ c.bool .removeSingleNewlines = some true

/-- No comment is written directly behind a token. -/
def HintedComments (c : Config) : Prop :=
  (c.bool .removeComments = some true ∧ c.lineRange = none) ∨ ∃ h, c.str .hintBeforeComment = some h ∧ h ≠ []

/-- The tokens of the program stay apart: nothing is removed between them, or whatever is removed is replaced by
a hint. The program must not have a long string directly behind an opening square bracket (for which there is no
hint) nor an unfinished numeral. -/
def KeepsApart (c : Config) (toks : List Token) : Prop :=
  (¬ Shrinks c ∨ (c.bool .replaceZeroSpacesWithHint = some true ∧ HintedComments c ∧
    ∀ n s, ¬ [Token.openSquare, .multiLineString n s] <:+: toks)) ∧
  ∀ s, Token.numeral s ∈ toks → ¬ UnfinishedNumeral s

/-- `TokensKept c ts ts'`: what formatting may do to a sequence of tokens. -/
inductive TokensKept (c : Config) : List Token → List Token → Prop
  | nil : TokensKept c [] []
  | tok {t t' : Token} {ts ts' : List Token} : TokenRewrite c t t' → TokensKept c ts ts' → TokensKept c (t :: ts) (t' :: ts')
  /-- a separator in front of `}` is dropped -/
  | dropSep {t : Token} {ts ts' : List Token} : t = .comma ∨ t = .semicolon → ts.head? = some .closeCurly →
      c.bool .writeTrailingFieldSeparator = some false ∨ c.bool .forceSingleLineTable = some true →
      TokensKept c ts ts' → TokensKept c (t :: ts) ts'
  /-- a separator in front of `}` is added -/
  | addSep {t : Token} {ts ts' : List Token} : t = .comma ∨ t = .semicolon → ts.head? = some .closeCurly →
      c.bool .writeTrailingFieldSeparator = some true → c.str .fieldSeparator = some (spell t) →
      TokensKept c ts ts' → TokensKept c ts (t :: ts')

/-- The text does not end in `--[`, `--[=`, `--[==`, ... -/
def Clean (s : Str) : Prop := ¬ ∃ n, '-' :: '-' :: '[' :: eqs n <:+ s

end Luafmt.Spec
