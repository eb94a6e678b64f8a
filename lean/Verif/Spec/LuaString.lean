import Verif.Model.Basic

/-
What a quoted Lua string literal denotes (Lua 5.3 reference manual, section 3.1): the bytes of the
string, or nothing if the literal is not valid Lua. Written as a machine that reads the body of the
literal one character at a time.
-/
namespace Luafmt.Spec

/-- UTF-8 encoding of a number below 2^31, as Lua's `\u{XXX}` produces it. -/
def utf8 (n : Nat) : List Nat :=
  if n < 0x80 then [n]
  else if n < 0x800 then [0xC0 + n / 64, 0x80 + n % 64]
  else if n < 0x10000 then [0xE0 + n / 4096, 0x80 + n / 64 % 64, 0x80 + n % 64]
  else if n < 0x200000 then
    [0xF0 + n / 262144, 0x80 + n / 4096 % 64, 0x80 + n / 64 % 64, 0x80 + n % 64]
  else if n < 0x4000000 then
    [0xF8 + n / 16777216, 0x80 + n / 262144 % 64, 0x80 + n / 4096 % 64, 0x80 + n / 64 % 64,
     0x80 + n % 64]
  else
    [0xFC + n / 1073741824, 0x80 + n / 16777216 % 64, 0x80 + n / 262144 % 64, 0x80 + n / 4096 % 64,
     0x80 + n / 64 % 64, 0x80 + n % 64]

/-- Value of a hexadecimal digit. -/
def hexVal (c : Char) : Option Nat :=
  if '0' ≤ c ∧ c ≤ '9' then some (c.toNat - 48)
  else if 'a' ≤ c ∧ c ≤ 'f' then some (c.toNat - 87)
  else if 'A' ≤ c ∧ c ≤ 'F' then some (c.toNat - 55)
  else none

/-- Value of a decimal digit. -/
def decVal (c : Char) : Option Nat := if '0' ≤ c ∧ c ≤ '9' then some (c.toNat - 48) else none

/-- Where the reader is inside the literal. -/
inductive LitState where
  /-- outside of escape sequences -/
  | plain
  /-- after a backslash -/
  | esc
  /-- after `\x` -/
  | hex0
  /-- after `\x` and one digit -/
  | hex1 (v : Nat)
  /-- after a backslash and `k` decimal digits -/
  | dec (k : Nat) (v : Nat)
  /-- after `\u` -/
  | uni0
  /-- after `\u{` (`some`: at least one digit) -/
  | uni1 (v : Option Nat)
  /-- after `\z`, skipping blanks -/
  | skip
  deriving DecidableEq

/-- The one-character escapes. -/
def simpleEscape (c : Char) : Option Nat :=
  if c = 'a' then some 7 else if c = 'b' then some 8 else if c = 'f' then some 12
  else if c = 'n' then some 10 else if c = 'r' then some 13 else if c = 't' then some 9
  else if c = 'v' then some 11 else if c = '\\' then some 92 else if c = '"' then some 34
  else if c = '\'' then some 39 else if c = '\n' then some 10 else none

/-- Blanks skipped by `\z`. -/
def isSpace (c : Char) : Bool :=
  c = ' ' || c = '\n' || c = '\t' || c = '\r' || c = '\x0b' || c = '\x0c'

/-- One character outside of escape sequences, in a literal with the quote `q`: the quote and the line
break may not appear. -/
def litPlain (q c : Char) : Option (LitState × List Nat) :=
  if c = '\\' then some (.esc, [])
  else if c = q ∨ c = '\n' ∨ c = '\r' then none
  else some (.plain, utf8 c.toNat)

/-- One character of a literal with the quote `q`. -/
def litStep (q : Char) (st : LitState) (c : Char) : Option (LitState × List Nat) :=
  match st with
  | .plain => litPlain q c
  | .esc =>
    if c = 'x' then some (.hex0, [])
    else if c = 'u' then some (.uni0, [])
    else if c = 'z' then some (.skip, [])
    else
      match decVal c with
      | some v => some (.dec 1 v, [])
      | none => (simpleEscape c).map fun b => (.plain, [b])
  | .hex0 => (hexVal c).map fun v => (.hex1 v, [])
  | .hex1 u => (hexVal c).map fun v => (.plain, [16 * u + v])
  | .dec k u =>
    match if k < 3 then decVal c else none with
    | some v => some (.dec (k + 1) (10 * u + v), [])
    | none => if u < 256 then (litPlain q c).map fun p => (p.1, u :: p.2) else none
  | .uni0 => if c = '{' then some (.uni1 none, []) else none
  | .uni1 u =>
    if c = '}' then
      match u with
      | some v => some (.plain, utf8 v)
      | none => none
    else
      match hexVal c with
      | some v => if 16 * u.getD 0 + v < 2 ^ 31 then some (.uni1 (some (16 * u.getD 0 + v)), []) else none
      | none => none
  | .skip => if isSpace c then some (.skip, []) else litPlain q c

/-- The bytes still owed when the body ends. -/
def litEnd : LitState → Option (List Nat)
  | .plain | .skip => some []
  | .dec _ u => if u < 256 then some [u] else none
  | _ => none

/-- Read the rest of a body. -/
def litRun (q : Char) (st : LitState) : Str → Option (List Nat)
  | [] => litEnd st
  | c :: s =>
    match litStep q st c with
    | some (st', out) => (litRun q st' s).map (out ++ ·)
    | none => none

/-- The value of the literal `q body q`, as a sequence of bytes; `none` if Lua does not accept it. -/
def literalValue (q : Char) (body : Str) : Option (List Nat) := litRun q .plain body

end Luafmt.Spec
