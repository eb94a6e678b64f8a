import Verif.Model.Util
import Verif.Model.CommentLexer

/-
Model of the printing of gaps: `CommentLocHint`, `SpaceLocHint` (src/formatting/loc_hint.rs),
`IfNewLine` (src/formatting/decoration.rs) and the comment tree (src/parser/comment_ast.rs).

The state that these functions read is the environment, the indentation level, and the
`comment_offset`/`comment_pos_range` fields, which are always written by `CommentLocHint` before the
comment printer reads them; they are therefore parameters here. Writers take the text written so
far and return the new one.
-/
namespace Luafmt

/-- `IfNewLine::configured_write`, src/formatting/decoration.rs:6-47, for a hint writer `w`
(argument: hint, text so far). -/
def ifNewLine (c : Config) (lvl : Int) (b : Bool) (w : Str → Str → Res Str) (h : Str) (f : Str) :
    Res Str :=
  if b then do
    let block ← w [] []
    let t := trimEndSpaces block
    let f1 :=
      if t ≠ [] then
        if t.getLast? = some '\n' then f ++ t else f ++ t ++ ['\n']
      else
        let f' := if 1 < byteLen f ∧ (f.getLast? = some ' ' ∨ f.getLast? = some '\t') then f.dropLast
          else f
        if f'.getLast? = some '\n' then f' else f' ++ ['\n']
    pure (f1 ++ indentText c lvl)
  else w h f

/-- What the comment printer reads besides the configuration. -/
structure CEnv where
  env : Env
  cbuf : Str
  off : Nat
  range : Option (Nat × Nat)
  lvl : Int

/-- Append the source text of a location inside the gap (`substr(buf, state, state.comment_offset)`). -/
def CEnv.put (e : CEnv) (loc : Loc) (f : Str) : Res Str := do
  let s ← substr e.env.buf loc e.cbuf e.off
  pure (f ++ s)

/-- `SpaceLocHint::configured_write`, src/formatting/loc_hint.rs:87-97. -/
def spaceHint (e : CEnv) (c : Config) (loc : Loc) (h : Str) (f : Str) : Res Str :=
  if outOfRange e.range loc then e.put loc f
  else if c.bool .removeSpacesBetweenTokens = some true then pure (f ++ h)
  else e.put loc f

/-- The text written for a comment or a newline, src/parser/comment_ast.rs:123-182. -/
def ctokText (c : Config) : CTok → Str
  | .newLine => if c.bool .removeAllNewlines = some true then [] else ['\n']
  | .oneLine s =>
    if c.bool .removeComments = some true then
      if c.bool .removeAllNewlines = some true then [] else ['\n']
    else
      match c.str .hintBeforeOnelineCommentText with
      | some p => if trimStart s = [] then L!"--\n" else L!"--" ++ p ++ trimStart s ++ ['\n']
      | none => L!"--" ++ s ++ ['\n']
  | .multiLine level s =>
    if c.bool .removeComments = some true then []
    else
      let lv := List.replicate level '='
      let body := match c.str .hintBeforeMultilineCommentText, c.str .hintAfterMultilineCommentText with
        | some p, some q => p ++ trim s ++ q
        | some p, none => p ++ trimStart s
        | none, some q => trimEnd s ++ q
        | none, none => s
      L!"--[" ++ lv ++ ['['] ++ body ++ [']'] ++ lv ++ [']']

/-- `configured_write` of `OneLineComment`, `MultiLineComment` and `NewLine`,
src/parser/comment_ast.rs:123-182. -/
def ctokWrite (e : CEnv) (c : Config) (t : CTokL) (f : Str) : Res Str :=
  if outOfRange e.range ⟨t.l, t.r⟩ then e.put ⟨t.l, t.r⟩ f else pure (f ++ ctokText c t.tok)

/-- `need_newline` of a comment, src/parser/comment_ast.rs:51-65. -/
def ctokNewline (c : Config) : CTok → Bool
  | .oneLine _ => c.num .newlineFormatOnelineComment = some 1
  | .multiLine _ _ => c.num .newlineFormatMultilineComment = some 1
  | .newLine => false

/-- `need_first_newline` of a run that starts with this token, src/parser/comment_ast.rs:68-81. -/
def ctokFirstNewline (c : Config) : CTok → Bool
  | .oneLine _ => c.num .newlineFormatFirstOnelineComment = some 1
  | .multiLine _ _ => c.num .newlineFormatFirstMultilineComment = some 1
  | .newLine => false

/-- `list_item_prefix_hint`, src/parser/comment_ast.rs:40-49. -/
def ctokHint (c : Config) : CTok → Str
  | .newLine => []
  | _ => (c.str .hintBeforeComment).getD []

/-- The gap before a later item of a list, src/formatting/list.rs:112-124. The range test of the
Rust code uses the range of the whole source (`state.pos_range`) with a location inside the gap and
then slices the gap text with offset 0; the model does the same. -/
def cgap (e : CEnv) (c : Config) (nl : Bool) (loc : Loc) (h : Str) (f : Str) : Res Str :=
  if outOfRange e.env.posRange loc then do
    let s ← substr e.env.buf loc e.cbuf 0
    pure (f ++ s)
  else ifNewLine c e.lvl nl (spaceHint e c loc) h f

/-- Later items of a `CommentList` or `NewLineList` (`need_newlines` is false for the latter),
src/formatting/list.rs:108-128. -/
def crunRest (e : CEnv) (c : Config) (isComments : Bool) : List (Loc × CTokL) → Str → Res Str
  | [], f => pure f
  | (gap, t) :: ts, f => do
    let f ← cgap e c (isComments && ctokNewline c t.tok) gap (ctokHint c t.tok) f
    let f ← ctokWrite e c t f
    crunRest e c isComments ts f

/-- `configured_write` of `CommentList` and `NewLineList`, src/parser/comment_ast.rs:112-121; the first
item never needs a newline of its own (`need_first_newline` of a comment is false). -/
def crunWrite (e : CEnv) (c : Config) (r : CRun) (f : Str) : Res Str :=
  if outOfRange e.range r.span then e.put r.span f
  else
    match r.items with
    | [] => pure f
    | (gap, t) :: ts => do
      let f ← ifNewLine c e.lvl false (spaceHint e c gap) [] f
      let f ← ctokWrite e c t f
      crunRest e c r.isComments ts f

/-- `need_newline`/`need_first_newline` of a `CommentList` inside a `VariantList`. -/
def crunNewline (p : CTok → Bool) (r : CRun) : Bool :=
  match r.isComments, r.items with
  | true, (_, t) :: _ => p t.tok
  | _, _ => false

/-- Later items of the `VariantList`, src/formatting/list.rs:108-128. -/
def cvariantRest (e : CEnv) (c : Config) : List (Loc × CRun) → Str → Res Str
  | [], f => pure f
  | (gap, r) :: rs, f => do
    let f ← cgap e c (crunNewline (ctokNewline c) r) gap [] f
    let f ← crunWrite e c r f
    cvariantRest e c rs f

/-- `configured_write` of `VariantList`, src/parser/comment_ast.rs:97-111. -/
def cvariantWrite (e : CEnv) (c : Config) (ch : CChunk) (f : Str) : Res Str :=
  if outOfRange e.range ch.span then e.put ch.span f
  else
    let single := match ch.runs with
      | [(_, r)] => !r.isComments && r.items.length == 1
      | _ => false
    if c.bool .removeSingleNewlines = some true ∧ single = true then pure f
    else
      match ch.runs with
      | [] => pure f
      | (gap, r) :: rs => do
        let f ← ifNewLine c e.lvl (crunNewline (ctokFirstNewline c) r) (spaceHint e c gap) [] f
        let f ← crunWrite e c r f
        cvariantRest e c rs f

/-- `configured_write` of the comment `Chunk`, src/parser/comment_ast.rs:93-96. -/
def cchunkWrite (e : CEnv) (c : Config) (ch : CChunk) (f : Str) : Res Str :=
  if outOfRange e.range ⟨ch.locl.l, ch.locr.r⟩ then e.put ⟨ch.locl.l, ch.locr.r⟩ f
  else do
    let f ← spaceHint e c ch.locl [] f
    let f ← cvariantWrite e c ch f
    spaceHint e c ch.locr [] f

/-- `write_formatted_comment_block`, src/formatting/loc_hint.rs:38-60: the text appended for a
formatted gap `block` and hint `h`. -/
def commentBlockText (c : Config) (h block : Str) : Str :=
  if block = [] then
    if c.bool .replaceZeroSpacesWithHint = some true then h else []
  else
    (if block.head? = some '-' then (c.str .hintBeforeComment).getD [] else []) ++ block ++
    (if block.getLast? = some ']' then (c.str .hintAfterMultilineComment).getD [] else [])

/-- The range seen by the comment printer, src/formatting/loc_hint.rs:69-72. -/
def commentRange (range : Option (Nat × Nat)) (off : Nat) : Option (Nat × Nat) :=
  range.map fun (l, r) => (l - min l off, r - min r off)

/-- `CommentLocHint::configured_write`, src/formatting/loc_hint.rs:63-84. -/
def commentHint (env : Env) (c : Config) (lvl : Int) (loc : Loc) (h : Str) (f : Str) : Res Str :=
  if outOfRange env.posRange loc then do
    let s ← substr env.buf loc env.buf 0
    pure (f ++ s)
  else do
    let cbuf ← substr env.buf loc env.buf 0
    match parseComment cbuf with
    | none => .err
    | some ch =>
      let e : CEnv := ⟨env, cbuf, loc.l, commentRange env.posRange loc.l, lvl⟩
      let full ← cchunkWrite e c ch [f.getLast?.getD ' ']
      match dropBytes 1 full with
      | none => .panic
      | some block => pure (f ++ commentBlockText c h block)

end Luafmt
