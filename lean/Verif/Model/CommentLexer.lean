import Verif.Model.LexUtil

/-
Model of src/parser/comment_lexer.rs, src/parser/comment_syntax.lalrpop and the data part of
src/parser/comment_ast.rs: reading the text between two tokens.
-/
namespace Luafmt

/-- `Token`, src/parser/comment_lexer.rs:8-13. -/
inductive CTok where
  | oneLine (s : Str)
  | multiLine (level : Nat) (s : Str)
  | newLine
  deriving DecidableEq, Repr

/-- A comment token with its positions. -/
structure CTokL where
  l : Nat
  tok : CTok
  r : Nat
  deriving DecidableEq, Repr

/-- One round of `Lexer::next`. -/
inductive CStep where
  | skip (c : Chars)
  | tok (l : Nat) (t : CTok) (r : Nat) (c : Chars)
  | bad
  | eof
  deriving DecidableEq, Repr

/-- One round of the loop of `Lexer::next`, src/parser/comment_lexer.rs:73-117. -/
def clexStep (c : Chars) : CStep :=
  match c.rest with
  | [] => .eof
  | ch :: _ =>
    if ch = ' ' ∨ ch = '\r' ∨ ch = '\t' then .skip c.advance
    else if ch = '\n' then .tok c.idx .newLine (c.idx + 1) c.advance
    else if ch = '-' then
      let c1 := c.advance
      if c1.rest.head? = some '-' then
        let e := getCommentEnds c1.advance (c.idx + 2)
        if e.succ then
          match e.level with
          | some level => .tok c.idx (.multiLine level e.text) e.tokenEnd e.chars
          | none => .tok c.idx (.oneLine e.text) e.tokenEnd e.chars
        else .bad
      else .bad
    else .bad

/-- All comment tokens (without `EOF`); `none` on a lexical error. -/
def clexGo : Nat → Chars → Option (List CTokL)
  | 0, _ => none
  | fuel + 1, c =>
    match clexStep c with
    | .eof => some []
    | .bad => none
    | .skip c' => clexGo fuel c'
    | .tok l t r c' => (clexGo fuel c').map (⟨l, t, r⟩ :: ·)

/-- The comment tokens of a gap text. -/
def clex (s : Str) : Option (List CTokL) := clexGo (s.length + 1) ⟨0, s⟩

/-- `CommentList` and `NewLineList` nodes with their items (gap before the item, item). -/
structure CRun where
  span : Loc
  isComments : Bool
  items : List (Loc × CTokL)
  deriving DecidableEq, Repr

/-- `Chunk(Loc, VariantList(Loc, runs), Loc)`, src/parser/comment_ast.rs:9-24. -/
structure CChunk where
  locl : Loc
  span : Loc
  runs : List (Loc × CRun)
  locr : Loc
  deriving DecidableEq, Repr

/-- Is the token a comment (an item of `CommentList`)? -/
def CTok.isComment : CTok → Bool
  | .newLine => false
  | _ => true

/-- Group tokens into maximal runs of comments and of newlines. The grammar
(src/parser/comment_syntax.lalrpop:10-50, 63-76) lets `CommentList` and `NewLineList` alternate,
so its derivations are exactly these groupings. -/
def cgroup : List CTokL → List (Bool × List CTokL)
  | [] => []
  | t :: ts =>
    match cgroup ts with
    | [] => [(t.tok.isComment, [t])]
    | (b, g) :: gs =>
      if t.tok.isComment = b then (b, t :: g) :: gs else (t.tok.isComment, [t]) :: (b, g) :: gs

/-- The items of one run: the first has the empty gap at its own start, each later one the gap
since the previous item (`TList`, comment_syntax.lalrpop:10-21). -/
def crunItems : Option Nat → List CTokL → List (Loc × CTokL)
  | _, [] => []
  | none, t :: ts => (⟨t.l, t.l⟩, t) :: crunItems (some t.r) ts
  | some e, t :: ts => (⟨e, t.l⟩, t) :: crunItems (some t.r) ts

/-- Start of a run. -/
def crunStart : List CTokL → Nat
  | [] => 0
  | t :: _ => t.l

/-- End of a run. -/
def crunEnd : List CTokL → Nat
  | [] => 0
  | [t] => t.r
  | _ :: ts => crunEnd ts

/-- The runs of a `VariantList` with the gaps before them (`TAltList`, comment_syntax.lalrpop:24-50). -/
def cvariant : Option Nat → List (Bool × List CTokL) → List (Loc × CRun)
  | _, [] => []
  | e, (b, g) :: gs =>
    let s := crunStart g
    let gap : Loc := match e with
      | none => ⟨s, s⟩
      | some e => ⟨e, s⟩
    (gap, ⟨⟨s, crunEnd g⟩, b, crunItems none g⟩) :: cvariant (some (crunEnd g)) gs

/-- `parse_comment`, src/parser/mod.rs: lex and group a gap text (comment_syntax.lalrpop:53-61).
`none` is the error case. -/
def parseComment (s : Str) : Option CChunk :=
  match clex s with
  | none => none
  | some [] => some ⟨⟨0, s.length⟩, ⟨s.length, s.length⟩, [], ⟨s.length, s.length⟩⟩
  | some (t :: ts) =>
    let e := crunEnd (t :: ts)
    some ⟨⟨0, t.l⟩, ⟨t.l, e⟩, cvariant none (cgroup (t :: ts)), ⟨e, s.length⟩⟩

end Luafmt
