import Verif.Model.Ast

/-
The top-level statements of a program, for the properties about line ranges.
-/
namespace Luafmt.Spec

/-- The statements of a statement list. A statement list can contain a statement list again: the grammar reads
`do end (f)()` as a group of two statements. -/
def listStatements (kids : List Node) : List Node :=
  kids.flatMap fun k => match k.tag with
    | .statementList => k.kids
    | _ => [k]

/-- The statements of a block, with the `return` statement. -/
def blockStatements : Node → List Node
  | .mk .statementList _ _ kids => listStatements kids
  | .mk .statsRetStat _ _ [.mk .statementList _ _ kids, ret] => listStatements kids ++ [ret]
  | n => [n]

/-- The top-level statements of a program. -/
def allStatements : Node → List Node
  | .mk .chunk _ _ [.mk (.sheBang _) _ _ _] => []
  | .mk .chunk _ _ [b] => blockStatements b
  | .mk .sheBangChunk _ _ [_, b] => blockStatements b
  | _ => []

/-- The statements of a statement list that are not in a group. (Field lists and the names of functions are no
statements.) -/
def ungrouped (kids : List Node) : List Node :=
  kids.filter fun k => match k.tag with
    | .statementList | .fields _ _ _ | .funcNameItems _ => false
    | _ => true

/-- The top-level statements that are neither in a group nor a `return` statement. -/
def plainStatements : Node → List Node
  | .mk .chunk _ _ [.mk .statementList _ _ kids] => ungrouped kids
  | .mk .chunk _ _ [.mk .statsRetStat _ _ [.mk .statementList _ _ kids, _]] => ungrouped kids
  | .mk .sheBangChunk _ _ [_, .mk .statementList _ _ kids] => ungrouped kids
  | .mk .sheBangChunk _ _ [_, .mk .statsRetStat _ _ [.mk .statementList _ _ kids, _]] => ungrouped kids
  | _ => []

/-- Entirely inside the region from `l` to `r`, or entirely outside of it. -/
def Whole (l r : Nat) (s : Loc) : Prop := (l ≤ s.l ∧ s.r ≤ r) ∨ s.r ≤ l ∨ r ≤ s.l

instance (l r : Nat) (s : Loc) : Decidable (Whole l r s) := by unfold Whole; infer_instance

end Luafmt.Spec
