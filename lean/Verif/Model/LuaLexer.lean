import Verif.Model.LexUtil

/-
Model of src/parser/lua_lexer.rs.
-/
namespace Luafmt

/-- `Token`, src/parser/lua_lexer.rs:8-76. -/
inductive Token where
  | opExponentiation | opLogicalNot | opLength | opMultiplication | opDivision | opFloorDivision
  | opModulo | opAddition | minus | opConcatenation | opLeftShift | opRightShift | opBitwiseAnd
  | tilde | opBitwiseOr | opEquality | opInequality | opLessThan | opGreaterThan | opLessOrEqual
  | opGreaterOrEqual | opLogicalAnd | opLogicalOr
  | variable (s : Str) | numeral (s : Str) | normalString (s : Str) | charString (s : Str)
  | multiLineString (level : Nat) (s : Str)
  | semicolon | comma | colon | label | equalsSign | period
  | openRound | closeRound | openSquare | closeSquare | openCurly | closeCurly
  | kwBreak | kwDo | kwElse | kwElseIf | kwEnd | kwFalse | kwFor | kwFunction | kwGoto | kwIf | kwIn
  | kwLocal | kwNil | kwRepeat | kwReturn | kwThen | kwTrue | kwUntil | varArg | kwWhile
  | sheBang (s : Str) | eof
  deriving DecidableEq, Repr

/-- `KEYWORDS`, src/parser/lua_lexer.rs:155-178. -/
def keywords : List (Str × Token) := [
  (L!"and", .opLogicalAnd), (L!"break", .kwBreak), (L!"do", .kwDo), (L!"else", .kwElse),
  (L!"elseif", .kwElseIf), (L!"end", .kwEnd), (L!"false", .kwFalse), (L!"for", .kwFor),
  (L!"function", .kwFunction), (L!"goto", .kwGoto), (L!"if", .kwIf), (L!"in", .kwIn),
  (L!"local", .kwLocal), (L!"nil", .kwNil), (L!"not", .opLogicalNot), (L!"or", .opLogicalOr),
  (L!"repeat", .kwRepeat), (L!"return", .kwReturn), (L!"then", .kwThen), (L!"true", .kwTrue),
  (L!"until", .kwUntil), (L!"while", .kwWhile)]

/-- `KEYWORDS.get(..)` or `Variable`, src/parser/lua_lexer.rs:446-449. -/
def wordToken (s : Str) : Token :=
  match keywords.lookup s with
  | some t => t
  | none => .variable s

/-- One round of the loop in `Lexer::next`: a skipped piece of text, a token, an error, or the end
of the text. -/
inductive Step where
  | skip (c : Chars)
  | tok (l : Nat) (t : Token) (r : Nat) (c : Chars)
  | bad
  | eof
  deriving DecidableEq, Repr

/-- The first arms of the loop are one-character tokens (src/parser/lua_lexer.rs:238, 252-253, 262,
321, 329, 339-340, 349-354). -/
def single (ch : Char) : Option Token :=
  if ch = '^' then some .opExponentiation
  else if ch = '*' then some .opMultiplication
  else if ch = '%' then some .opModulo
  else if ch = '+' then some .opAddition
  else if ch = '&' then some .opBitwiseAnd
  else if ch = '|' then some .opBitwiseOr
  else if ch = ';' then some .semicolon
  else if ch = ',' then some .comma
  else if ch = '(' then some .openRound
  else if ch = ')' then some .closeRound
  else if ch = '{' then some .openCurly
  else if ch = '}' then some .closeCurly
  else if ch = ']' then some .closeSquare
  else none

/-- Tokens of one character that become longer when a certain second character follows
(src/parser/lua_lexer.rs:254-260, 303-319, 322-328, 331-337, 341-347): the short token and the
table of second characters. -/
def double (ch : Char) : Option (Token × List (Char × Token)) :=
  if ch = '/' then some (.opDivision, [('/', .opFloorDivision)])
  else if ch = '<' then some (.opLessThan, [('<', .opLeftShift), ('=', .opLessOrEqual)])
  else if ch = '>' then some (.opGreaterThan, [('>', .opRightShift), ('=', .opGreaterOrEqual)])
  else if ch = '~' then some (.tilde, [('=', .opInequality)])
  else if ch = '=' then some (.equalsSign, [('=', .opEquality)])
  else if ch = ':' then some (.colon, [(':', .label)])
  else none

/-- The arm for `#`, src/parser/lua_lexer.rs:239-251. `c` starts at the `#`. -/
def lexHash (c : Chars) : Step :=
  let i := c.idx
  let c1 := c.advance
  if c1.rest.head? = some '!' then
    let e := getShebangEnds c1.advance (i + 2)
    .tok i (.sheBang (L!"#!" ++ e.2.2.1)) e.2.1 e.2.2.2
  else .tok i .opLength (i + 1) c1

/-- The arm for `-`, src/parser/lua_lexer.rs:263-277. -/
def lexMinus (c : Chars) : Step :=
  let i := c.idx
  let c1 := c.advance
  if c1.rest.head? = some '-' then
    let e := getCommentEnds c1.advance (i + 2)
    if e.succ then .skip e.chars else .bad
  else .tok i .minus (i + 1) c1

/-- The arm for `.`, src/parser/lua_lexer.rs:279-301. -/
def lexPeriod (c : Chars) : Step :=
  let i := c.idx
  let c1 := c.advance
  match c1.rest with
  | [] => .tok i .period (i + 1) c1
  | ch :: _ =>
    if ch = '.' then
      let c2 := c1.advance
      if c2.rest.head? = some '.' then .tok i .varArg (i + 3) c2.advance
      else .tok i .opConcatenation (i + 2) c2
    else if isDigit ch then
      let s := getFloatEnd c1 i
      if s.succ then .tok i (.numeral ('.' :: s.text)) s.endPos s.chars else .bad
    else .tok i .period (i + 1) c1

/-- The arm for `[`, src/parser/lua_lexer.rs:355-394. -/
def lexSquare (c : Chars) : Step :=
  let i := c.idx
  let c1 := c.advance
  let multi (c : Chars) (level start : Nat) : Step :=
    let e := getMultilineStringEnds c level start
    if e.succ then .tok i (.multiLineString level e.text) e.tokenEnd e.chars else .bad
  match c1.rest with
  | [] => .tok i .openSquare (i + 1) c1
  | ch :: _ =>
    if ch = '=' then
      let lv := getMultilineStringLevel c1 c1.idx
      match lv.2.rest with
      | [] => .bad
      | ch3 :: _ => if ch3 = '[' then multi lv.2.advance lv.1 (lv.2.idx + 1) else .bad
    else if ch = '[' then multi c1.advance 0 (c1.idx + 1)
    else .tok i .openSquare (i + 1) c1

/-- The arm for quotes, src/parser/lua_lexer.rs:396-404. -/
def lexQuote (c : Chars) (q : Char) : Step :=
  let i := c.idx
  let e := getStringEnds c.advance q i
  if e.succ then
    .tok i (if q = '\'' then .charString e.text else .normalString e.text) e.tokenEnd e.chars
  else .bad

/-- The arms for numerals, src/parser/lua_lexer.rs:406-440. `ch` is the digit at the front. -/
def lexNumber (c : Chars) (ch : Char) : Step :=
  let i := c.idx
  let c1 := c.advance
  if ch = '0' ∧ c1.rest.head? = some 'x' then
    let s := getHexIntegerEnd c1.advance (i + 2)
    if s.succ then .tok i (.numeral (L!"0x" ++ s.text)) s.endPos s.chars else .bad
  else
    let s := getFloatEnd c1 (i + 1)
    if s.succ then .tok i (.numeral (ch :: s.text)) s.endPos s.chars else .bad

/-- The arm for names and keywords, src/parser/lua_lexer.rs:442-453. -/
def lexWord (c : Chars) : Step :=
  let s := getVariableEnd c c.idx
  if s.succ then .tok c.idx (wordToken s.text) s.endPos s.chars else .bad

/-- One round of the loop of `Lexer::next`, src/parser/lua_lexer.rs:223-460. The arms are disjoint
on the first character, so their order does not matter; the model groups them. -/
def lexStep (c : Chars) : Step :=
  match c.rest with
  | [] => .eof
  | ch :: _ =>
    if ch = ' ' ∨ ch = '\n' ∨ ch = '\r' ∨ ch = '\t' then .skip c.advance
    else
      match single ch with
      | some t => .tok c.idx t (c.idx + 1) c.advance
      | none =>
        match double ch with
        | some (t, alts) =>
          match c.advance.rest with
          | [] => .tok c.idx t (c.idx + 1) c.advance
          | ch2 :: _ =>
            match alts.lookup ch2 with
            | some t2 => .tok c.idx t2 (c.idx + 2) c.advance.advance
            | none => .tok c.idx t (c.idx + 1) c.advance
        | none =>
          if ch = '#' then lexHash c
          else if ch = '-' then lexMinus c
          else if ch = '.' then lexPeriod c
          else if ch = '[' then lexSquare c
          else if ch = '"' ∨ ch = '\'' then lexQuote c ch
          else if isDigit ch then lexNumber c ch
          else if isAlpha ch ∨ ch = '_' then lexWord c
          else .bad

/-- A token with its start and end position. -/
structure TokL where
  l : Nat
  tok : Token
  r : Nat
  deriving DecidableEq, Repr

/-- All tokens of the rest of the text, the final `EOF` included; `none` if the lexer reports an
error (the parser then fails, whatever it has read before). Every round consumes a character, so
`fuel` greater than the number of remaining characters is never exhausted. -/
def lexGo : Nat → Chars → Option (List TokL)
  | 0, _ => none
  | fuel + 1, c =>
    match lexStep c with
    | .eof => some [⟨c.idx, .eof, c.idx⟩]
    | .bad => none
    | .skip c' => lexGo fuel c'
    | .tok l t r c' => (lexGo fuel c').map (⟨l, t, r⟩ :: ·)

/-- The token stream of a text: `Lexer::new(input)` driven to its end, src/parser/lua_lexer.rs:204-461
and src/parser/mod.rs (`parse_lua`). -/
def lexLua (s : Str) : Option (List TokL) := lexGo (s.length + 1) ⟨0, s⟩

end Luafmt
