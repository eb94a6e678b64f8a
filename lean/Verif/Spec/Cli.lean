import Verif.Model.Main

/-
Specification of the command line: what an argument means, by its spelling.
-/
namespace Luafmt.Spec

/-- A letter, a digit or an underscore. -/
def WordChar (c : Char) : Prop :=
  ('a' ≤ c ∧ c ≤ 'z') ∨ ('A' ≤ c ∧ c ≤ 'Z') ∨ ('0' ≤ c ∧ c ≤ '9') ∨ c = '_'

/-- `arg` is `--name=value`. -/
def Assigns (arg name value : Str) : Prop :=
  arg = L!"--" ++ name ++ L!"=" ++ value ∧ name ≠ [] ∧ (∀ c ∈ name, WordChar c) ∧ '\n' ∉ value

/-- The spellings of the switches. -/
def inplaceArgs : List Str := [L!"-i", L!"--i", L!"-inplace", L!"--inplace"]
def recursiveArgs : List Str := [L!"-r", L!"--r", L!"-recursive", L!"--recursive"]
def verboseArgs : List Str := [L!"-v", L!"--v", L!"-verbose", L!"--verbose"]

/-- `ReadArgs args l`: the assignments among the arguments, in order, are `l`. -/
inductive ReadArgs : List Str → List (Str × Str) → Prop
  | nil : ReadArgs [] []
  | assign {a n v args l} : Assigns a n v → ReadArgs args l → ReadArgs (a :: args) ((n, v) :: l)
  | other {a args l} : (∀ n v, ¬ Assigns a n v) → ReadArgs args l → ReadArgs (a :: args) l

end Luafmt.Spec
