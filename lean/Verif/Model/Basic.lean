/-
Basic vocabulary of the model: text, results, positions.
-/
namespace Luafmt

/-- A Rust `String`/`&str` is a sequence of Unicode scalar values; Lean's `Char` is exactly a
Unicode scalar value. Byte offsets are recovered with `Char.utf8Size`. -/
abbrev Str := List Char

/-- `L!"abc"` is the character list `['a', 'b', 'c']` (a literal the kernel can evaluate). -/
syntax:max (name := strLit) "L!" str : term

macro_rules
  | `(L! $s:str) => do
    let cs := s.getString.toList.map fun c => Lean.Syntax.mkCharLit c
    `(([$(cs.toArray),*] : List Char))

/-- Outcome of a Rust computation that may return `Err(fmt::Error)` or panic.
(`core::fmt::Result` and panics; src/formatting/util.rs, src/parser/lua_ast.rs.) -/
inductive Res (α : Type) where
  | ok (a : α)
  | err
  | panic
  deriving DecidableEq, Repr

namespace Res
def bind {α β : Type} (x : Res α) (f : α → Res β) : Res β :=
  match x with
  | ok a => f a
  | err => err
  | panic => panic

instance : Monad Res where
  pure := ok
  bind := Res.bind

@[simp] theorem bind_ok {α β} (a : α) (f : α → Res β) : (Res.ok a >>= f) = f a := rfl
@[simp] theorem bind_err {α β} (f : α → Res β) : (Res.err >>= f) = .err := rfl
@[simp] theorem bind_panic {α β} (f : α → Res β) : (Res.panic >>= f) = .panic := rfl
@[simp] theorem pure_eq {α} (a : α) : (pure a : Res α) = .ok a := rfl

theorem bind_eq_ok {α β} {x : Res α} {f : α → Res β} {b : β} :
    (x >>= f) = .ok b ↔ ∃ a, x = .ok a ∧ f a = .ok b := by
  cases x <;> simp
end Res

/-- `Loc(usize, usize)`: a half-open interval of character indexes. src/parser/common.rs:4-5. -/
structure Loc where
  l : Nat
  r : Nat
  deriving DecidableEq, Repr

/-- Length in bytes of a text (`str::len`). -/
def byteLen : Str → Nat
  | [] => 0
  | c :: s => c.utf8Size + byteLen s

/-- `&s[n..]`: drop `n` bytes; `none` models the panic on an index that is out of range or not a
character boundary. -/
def dropBytes : Nat → Str → Option Str
  | 0, s => some s
  | _ + 1, [] => none
  | n + 1, c :: s => if c.utf8Size ≤ n + 1 then dropBytes (n + 1 - c.utf8Size) s else none

/-- `&s[..n]`: the first `n` bytes; `none` models the panic. -/
def takeBytes : Nat → Str → Option Str
  | 0, _ => some []
  | _ + 1, [] => none
  | n + 1, c :: s =>
    if c.utf8Size ≤ n + 1 then (takeBytes (n + 1 - c.utf8Size) s).map (c :: ·) else none

/-- `&s[a..b]`: slice by byte offsets; `none` models the panic (`a > b`, out of range or not on a
character boundary). -/
def sliceBytes (a b : Nat) (s : Str) : Option Str :=
  if a ≤ b then (dropBytes a s).bind (takeBytes (b - a)) else none

/-- `str::trim` works with the Unicode `White_Space` property; this is that property. -/
def isWhite (c : Char) : Bool :=
  let n := c.toNat
  (9 ≤ n && n ≤ 13) || n == 32 || n == 0x85 || n == 0xA0 || n == 0x1680 ||
  (0x2000 ≤ n && n ≤ 0x200A) || n == 0x2028 || n == 0x2029 || n == 0x202F || n == 0x205F ||
  n == 0x3000

/-- Remove from the end while `p` holds (`trim_end_matches` and friends). -/
def dropEndWhile (p : Char → Bool) (s : Str) : Str := (s.reverse.dropWhile p).reverse

/-- `str::trim_start`. -/
def trimStart (s : Str) : Str := s.dropWhile isWhite

/-- `str::trim_end`. -/
def trimEnd (s : Str) : Str := dropEndWhile isWhite s

/-- `str::trim`. -/
def trim (s : Str) : Str := trimEnd (trimStart s)

/-- `char::is_ascii_digit`. -/
def isDigit (c : Char) : Bool := 48 ≤ c.toNat && c.toNat ≤ 57

/-- `char::is_ascii_alphabetic`. -/
def isAlpha (c : Char) : Bool :=
  (65 ≤ c.toNat && c.toNat ≤ 90) || (97 ≤ c.toNat && c.toNat ≤ 122)

/-- The hexadecimal digits accepted by `get_hex_integer_end`, src/parser/lexer_util.rs:53-57. -/
def isHex (c : Char) : Bool :=
  isDigit c || (65 ≤ c.toNat && c.toNat ≤ 70) || (97 ≤ c.toNat && c.toNat ≤ 102)

/-- The continuation characters of names, src/parser/lexer_util.rs:98-101. -/
def isIdent (c : Char) : Bool := isAlpha c || isDigit c || c == '_'

end Luafmt
