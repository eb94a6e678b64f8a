import Verif.Spec.Elements
import Verif.Model.Ast

/-
When two syntax trees are the same program. This uses the type of trees and the options, but not the parser or the
printer.
-/
namespace Luafmt.Spec

/-- The separator between two fields of a table may become `s'`. With a line range it may also be copied. -/
def Separator (c : Config) (s s' : Str) : Prop :=
  s' = (c.str .fieldSeparator).getD s ∨ (c.lineRange ≠ none ∧ s' = s)

/-- The separator behind the last field of a table (empty: there is none) may become `s'`. The option
`write_trailing_field_separator` decides; a table that is put on one line because of `force_single_line_table` has
none. With a line range it may also be copied. -/
def LastSeparator (c : Config) (s s' : Str) : Prop :=
  (s' = match c.bool .writeTrailingFieldSeparator with
    | some true => (c.str .fieldSeparator).getD s
    | some false => []
    | none => if s = [] then [] else (c.str .fieldSeparator).getD s) ∨
  (s' = [] ∧ c.bool .forceSingleLineTable = some true) ∨ (c.lineRange ≠ none ∧ s' = s)

/-- The separators behind the fields of a table, before and after formatting. -/
def FieldSeparators (c : Config) : List Str → List Str → Prop
  | [], [] => True
  | [s], [s'] => LastSeparator c s s'
  | s :: ss, s' :: ss' => Separator c s s' ∧ FieldSeparators c ss ss'
  | _, _ => False

/-- The kind of a node (with the texts of names and literals) before and after formatting: nothing changes but the
separators of table fields and the quotes of strings. -/
def SameTag (c : Config) (t t' : Tag) : Prop :=
  match t with
  | .fields ss i j => ∃ ss', t' = .fields ss' i j ∧ FieldSeparators c ss ss'
  | .charStringLiteral s => t' = t ∨ (c.bool .convertCharstringToNormalstring = some true ∧
      ∃ s', t' = .normalStringLiteral s' ∧ ∀ v, literalValue '\'' s = some v → literalValue '"' s' = some v)
  | t => t' = t

mutual
/-- `SameProgram c n n'`: the trees have the same nodes in the same places; their positions in the text are not
compared. -/
def SameProgram (c : Config) : Node → Node → Prop
  | .mk t _ _ ks, .mk t' _ _ ks' => SameTag c t t' ∧ SamePrograms c ks ks'
/-- The same for lists of trees. -/
def SamePrograms (c : Config) : List Node → List Node → Prop
  | [], [] => True
  | n :: ns, n' :: ns' => SameProgram c n n' ∧ SamePrograms c ns ns'
  | _, _ => False
end

mutual
/-- The separators of the tables in a tree. -/
def tableSeparators : Node → List (List Str)
  | .mk (.fields ss _ _) _ _ ks => ss :: tableSeparatorsAll ks
  | .mk _ _ _ ks => tableSeparatorsAll ks
def tableSeparatorsAll : List Node → List (List Str)
  | [] => []
  | n :: ns => tableSeparators n ++ tableSeparatorsAll ns
end

end Luafmt.Spec
