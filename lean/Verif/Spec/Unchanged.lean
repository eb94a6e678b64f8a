import Verif.Model.Config
import Verif.Spec.Lex
import Verif.Model.LuaLexer

/-
What C01 talks about: configurations without options, and how a text may differ from another one.
-/
namespace Luafmt.Spec

/-- No format option is set. -/
structure NoOptions (c : Config) : Prop where
  bool : ∀ o, c.bool o = none
  num : ∀ o, c.num o = none
  str : ∀ o, c.str o = none

/-- There is a newline between the braces of an empty table constructor of the source, but not directly before the
closing brace. -/
def OpenEmptyTable (src : Str) : Prop :=
  ∃ xs t u ys, lexLua src = some (xs ++ t :: u :: ys) ∧ t.tok = .openCurly ∧ u.tok = .closeCurly ∧
    '\n' ∈ (src.drop t.r).take (u.l - t.r) ∧ ((src.drop t.r).take (u.l - t.r)).getLast? ≠ some '\n'

/-- The text ends in `--[` with any number of equals signs behind it. -/
def EndsInHalfOpener (src : Str) : Prop := ∃ a n, src = a ++ '-' :: '-' :: '[' :: List.replicate n '='

/-- The last line of the text ends in a one-line comment or is a shebang line. -/
def EndsInComment (src : Str) : Prop :=
  ∃ a t, src = a ++ t ∧ '\n' ∉ t ∧ (t.take 2 = ['-', '-'] ∨ t.take 2 = ['#', '!'])

/-- The end of the text between the braces of an empty table that spans lines: spaces and tabs go, and the
closing brace starts a line. -/
def closing (g : Str) : Str :=
  let x := (g.reverse.dropWhile fun ch => ch == ' ' || ch == '\t').reverse
  if x.getLast? = some '\n' then x else x ++ ['\n']

/-- `Kept E src out`: `out` is `src` up to the end of gaps in empty tables (only where `E` holds) and up to a
comment or shebang line at the end of the text. -/
inductive Kept (E : Prop) : Str → Str → Prop
  | nil : Kept E [] []
  | char (ch : Char) {s s' : Str} : Kept E s s' → Kept E (ch :: s) (ch :: s')
  | emptyTable {g s s' : Str} : E → Gap g → '\n' ∈ g → Kept E s s' →
      Kept E ('{' :: (g ++ '}' :: s)) ('{' :: (closing g ++ '}' :: s'))
  | comment {t : Str} : LineText t → Kept E ('-' :: '-' :: t) ('-' :: '-' :: (t ++ ['\n']))
  | half (n : Nat) : Kept E ('-' :: '-' :: '[' :: List.replicate n '=') ['-', '-', '\n']
  | shebang {t : Str} : '\n' ∉ t → Kept E ('#' :: '!' :: t) ('#' :: '!' :: (t ++ ['\n']))

end Luafmt.Spec
