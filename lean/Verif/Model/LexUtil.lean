import Verif.Model.Basic

/-
Model of src/parser/lexer_util.rs.
-/
namespace Luafmt

/-- `TChars`: the peekable, enumerated character iterator (src/parser/lexer_util.rs:1).
`idx` is the index of the next character, `rest` the characters not yet consumed. -/
structure Chars where
  idx : Nat
  rest : Str
  deriving DecidableEq, Repr

/-- `chars.next()` (result ignored). -/
def Chars.advance (c : Chars) : Chars :=
  match c.rest with
  | [] => c
  | _ :: r => ⟨c.idx + 1, r⟩

/-- The loop of `seek_end_by_predicate` (src/parser/lexer_util.rs:13-27): consume characters until
`f ch escaped` holds. Returns the consumed text and the iterator. -/
def seekGo (f : Char → Bool → Bool) : Bool → Nat → Str → Str × Chars
  | _, i, [] => ([], ⟨i, []⟩)
  | esc, i, ch :: r =>
    if f ch esc then ([], ⟨i, ch :: r⟩)
    else
      let p := seekGo f (!esc && ch == '\\') (i + 1) r
      (ch :: p.1, p.2)

/-- Result of `seek_end_by_predicate`: end position, success flag, text, and the iterator left. -/
structure Seek where
  endPos : Nat
  succ : Bool
  text : Str
  chars : Chars
  deriving DecidableEq, Repr

/-- `seek_end_by_predicate`, src/parser/lexer_util.rs:3-28. -/
def seekEnd (f : Char → Bool → Bool) (start : Nat) (c : Chars) : Seek :=
  match c.rest with
  | [] => ⟨start, false, [], c⟩
  | _ :: _ =>
    let p := seekGo f false c.idx c.rest
    match p.2.rest with
    | [] => ⟨p.2.idx, false, p.1, p.2⟩
    | _ :: _ => ⟨p.2.idx, true, p.1, p.2⟩

/-- `get_shebang_ends`, src/parser/lexer_util.rs:30-40: (text end, token end, text, iterator). -/
def getShebangEnds (c : Chars) (start : Nat) : Nat × Nat × Str × Chars :=
  let s := seekEnd (fun ch _ => ch == '\n') start c
  if s.succ then (s.endPos, s.endPos + 1, s.text, s.chars.advance)
  else (s.endPos, s.endPos, s.text, s.chars)

/-- `get_integer_end`, src/parser/lexer_util.rs:42-51. -/
def getIntegerEnd (c : Chars) (start : Nat) : Seek :=
  let s := seekEnd (fun ch _ => !isDigit ch) start c
  if start ≥ s.endPos && !s.succ then { s with succ := false } else { s with succ := true }

/-- `get_hex_integer_end`, src/parser/lexer_util.rs:53-64. -/
def getHexIntegerEnd (c : Chars) (start : Nat) : Seek :=
  let s := seekEnd (fun ch _ => !isHex ch) start c
  if start ≥ s.endPos && !s.succ then { s with succ := false } else { s with succ := true }

/-- `get_float_end`, src/parser/lexer_util.rs:66-96. -/
def getFloatEnd (c : Chars) (start : Nat) : Seek :=
  let s := seekEnd (fun ch _ => !isDigit ch && ch != '.') start c
  match s.chars.rest with
  | [] => { s with succ := true }
  | ch :: _ =>
    if ch = 'e' ∨ ch = 'E' then
      let i := s.chars.idx
      let c1 := s.chars.advance
      match c1.rest with
      | [] => ⟨i + 1, false, [], c1⟩
      | ch2 :: _ =>
        if ch2 = '-' then
          let n := getIntegerEnd c1.advance (c1.idx + 1)
          if n.succ then ⟨n.endPos, true, s.text ++ [ch, '-'] ++ n.text, n.chars⟩
          else ⟨n.endPos, false, s.text ++ [ch, '-'], n.chars⟩
        else
          let n := getIntegerEnd c1 (i + 1)
          if n.succ then ⟨n.endPos, true, s.text ++ [ch] ++ n.text, n.chars⟩
          else ⟨n.endPos, false, s.text ++ [ch], n.chars⟩
    else { s with succ := true }

/-- `get_variable_end`, src/parser/lexer_util.rs:98-109. -/
def getVariableEnd (c : Chars) (start : Nat) : Seek :=
  let s := seekEnd (fun ch _ => !isIdent ch) start c
  if !s.succ && start ≥ s.endPos then { s with succ := false } else { s with succ := true }

/-- Result of the scanners that skip a closing delimiter. -/
structure Ends where
  textEnd : Nat
  tokenEnd : Nat
  succ : Bool
  text : Str
  chars : Chars
  deriving DecidableEq, Repr

/-- `get_string_ends`, src/parser/lexer_util.rs:111-123. -/
def getStringEnds (c : Chars) (pre : Char) (start : Nat) : Ends :=
  let s := seekEnd (fun ch escaped => !escaped && ch == pre) start c
  if s.succ then ⟨s.endPos, s.endPos + 1, true, s.text, s.chars.advance⟩
  else ⟨s.endPos, s.endPos, false, s.text, s.chars⟩

/-- `get_oneline_comment_ends`, src/parser/lexer_util.rs:125-136. -/
def getOnelineCommentEnds (c : Chars) (start : Nat) : Ends :=
  let s := seekEnd (fun ch _ => ch == '\n') start c
  if s.succ then ⟨s.endPos, s.endPos + 1, true, s.text, s.chars.advance⟩
  else ⟨s.endPos, s.endPos, true, s.text, s.chars⟩

/-- `get_multiline_string_level`, src/parser/lexer_util.rs:138-145. -/
def getMultilineStringLevel (c : Chars) (start : Nat) : Nat × Chars :=
  let s := seekEnd (fun ch _ => ch != '=') start c
  (if s.endPos ≥ start then s.endPos - start else 0, s.chars)

/-- `(0..level).map(|_| "=").collect::<String>()`. -/
def eqs (n : Nat) : Str := List.replicate n '='

/-- The loop of `get_multiline_string_ends`, src/parser/lexer_util.rs:153-181. The iterator loses at
least one character per round; `fuel` bounds the number of rounds and is never exhausted when it
exceeds the number of remaining characters (`multiGo_fuel` in the proofs). -/
def multiGo (level : Nat) : Nat → Bool → Nat → Chars → Ends
  | 0, _, e, c => ⟨e + 1, e + 1, false, [], c⟩
  | fuel + 1, esc, e, c =>
    match c.rest with
    | [] => ⟨e + 1, e + 1, false, [], c⟩
    | ch :: _ =>
      let textEnd := c.idx
      let c1 := c.advance
      if !esc && ch == ']' then
        let lv := getMultilineStringLevel c1 (textEnd + 1)
        let cont :=
          let x := multiGo level fuel false textEnd lv.2
          { x with text := (']' :: eqs lv.1) ++ x.text }
        if level = lv.1 then
          match lv.2.rest with
          | [] => ⟨textEnd + lv.1 + 1, textEnd + lv.1 + 1, false, [], lv.2⟩
          | ch2 :: _ =>
            if ch2 = ']' then ⟨textEnd, lv.2.idx + 1, true, [], lv.2.advance⟩ else cont
        else cont
      else
        let x := multiGo level fuel (ch == '\\') textEnd c1
        { x with text := ch :: x.text }

/-- `get_multiline_string_ends`, src/parser/lexer_util.rs:147-182. -/
def getMultilineStringEnds (c : Chars) (level start : Nat) : Ends :=
  multiGo level (c.rest.length + 1) false start c

/-- Result of `get_comment_start_ends_and_type` (the text start and end are not used by callers and
are left out). -/
structure CommentEnds where
  tokenEnd : Nat
  level : Option Nat
  succ : Bool
  text : Str
  chars : Chars
  deriving DecidableEq, Repr

/-- `get_comment_start_ends_and_type`, src/parser/lexer_util.rs:184-236. -/
def getCommentEnds (c : Chars) (start : Nat) : CommentEnds :=
  let oneline (c : Chars) (start : Nat) (pre : Str) : CommentEnds :=
    let e := getOnelineCommentEnds c start
    ⟨e.tokenEnd, none, e.succ, pre ++ e.text, e.chars⟩
  let multi (c : Chars) (level start : Nat) : CommentEnds :=
    let e := getMultilineStringEnds c level start
    ⟨e.tokenEnd, some level, e.succ, e.text, e.chars⟩
  match c.rest with
  | [] => oneline c start []
  | ch :: _ =>
    if ch = '[' then
      let c1 := c.advance
      match c1.rest with
      | [] => ⟨start + 1, none, true, [], c1⟩
      | ch2 :: _ =>
        if ch2 = '=' then
          let lv := getMultilineStringLevel c1 c1.idx
          match lv.2.rest with
          | [] => ⟨start + lv.1 + 1, none, true, [], lv.2⟩
          | ch3 :: _ =>
            if ch3 = '[' then multi lv.2.advance lv.1 (lv.2.idx + 1)
            else oneline lv.2 lv.2.idx ('[' :: eqs lv.1)
        else if ch2 = '[' then multi c1.advance 0 (c1.idx + 1)
        else oneline c1 c1.idx ['[']
    else oneline c start []

end Luafmt
