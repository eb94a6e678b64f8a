import Verif.Model.Basic

/-
Lua numerals (Lua 5.3 reference manual, section 3.1).
-/
namespace Luafmt.Spec

/-- All characters are decimal digits. -/
def Digits (s : Str) : Prop := ∀ c ∈ s, isDigit c = true
/-- All characters are hexadecimal digits. -/
def HexDigits (s : Str) : Prop := ∀ c ∈ s, isHex c = true

instance (s : Str) : Decidable (Digits s) := inferInstanceAs (Decidable (∀ c ∈ s, isDigit c = true))
instance (s : Str) : Decidable (HexDigits s) := inferInstanceAs (Decidable (∀ c ∈ s, isHex c = true))

/-- An optional sign. -/
def Sign (s : Str) : Prop := s = [] ∨ s = ['+'] ∨ s = ['-']

/-- An optional exponent: one of the marks, a sign, at least one decimal digit. -/
def Exponent (marks : List Char) (s : Str) : Prop :=
  s = [] ∨ ∃ e sg ds, s = e :: (sg ++ ds) ∧ e ∈ marks ∧ Sign sg ∧ Digits ds ∧ ds ≠ []

/-- The numerals of Lua. -/
inductive Numeral : Str → Prop
  | dec (a b x : Str) : Digits a → Digits b → a ++ b ≠ [] → Exponent ['e', 'E'] x → (b = [] → a ≠ []) →
      Numeral (a ++ (if b = [] then [] else '.' :: b) ++ x)
  | decDot (a x : Str) : Digits a → a ≠ [] → Exponent ['e', 'E'] x → Numeral (a ++ ['.'] ++ x)
  | hex (m : Char) (a b x : Str) : m = 'x' ∨ m = 'X' → HexDigits a → HexDigits b → a ++ b ≠ [] →
      Exponent ['p', 'P'] x → Numeral ('0' :: m :: (a ++ (if b = [] then [] else '.' :: b) ++ x))
  | hexDot (m : Char) (a x : Str) : m = 'x' ∨ m = 'X' → HexDigits a → a ≠ [] →
      Exponent ['p', 'P'] x → Numeral ('0' :: m :: (a ++ ['.'] ++ x))

/-- The forms of numerals the program does not know: an exponent with a plus sign, a capital `X`, and
hexadecimal fractions and exponents. -/
def Unsupported (s : Str) : Prop :=
  '+' ∈ s ∨ 'X' ∈ s ∨ ('x' ∈ s ∧ ('.' ∈ s ∨ 'p' ∈ s ∨ 'P' ∈ s))

/-- What may follow a numeral in Lua: the end of the text or a character that cannot belong to it. -/
def EndsNumeral (rest : Str) : Prop := ∀ c, rest.head? = some c → isIdent c = false ∧ c ≠ '.'

end Luafmt.Spec
