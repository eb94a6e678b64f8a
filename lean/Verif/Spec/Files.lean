import Verif.Model.Main

/-
Vocabulary about directory trees for the properties C17 to C23.
-/
namespace Luafmt.Spec

mutual
/-- No directory has two entries of the same name. -/
def ProperTree : FS → Prop
  | .dir _ es => (es.map Prod.fst).Nodup ∧ ProperEntries es
  | _ => True
/-- The same for the entries of a directory. -/
def ProperEntries : List (Name × FS) → Prop
  | [] => True
  | (_, e) :: es => ProperTree e ∧ ProperEntries es
end

/-- There is a regular file at the path. -/
def FileAt (fs : FS) (q : Path) : Prop := ∃ t w, fs.get q = some (.file t w)

/-- `<something>.lua`, not beginning with `.luafmt`. -/
def LuaName (n : Name) : Prop := (∃ base, base ≠ [] ∧ n = base ++ L!".lua") ∧ ¬ L!".luafmt" <+: n

/-- `.luafmt<something>.lua`. -/
def ConfigName (n : Name) : Prop := ∃ mid, n = L!".luafmt" ++ mid ++ L!".lua"

/-- The directory `d` can be listed and has a configuration file named `n`. -/
def HasConfig (fs : FS) (d : Path) (n : Name) : Prop :=
  ∃ es, fs.get d = some (.dir true es) ∧ (∃ t w, (n, .file t w) ∈ es) ∧ ConfigName n

end Luafmt.Spec
