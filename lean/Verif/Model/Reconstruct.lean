import Verif.Model.Util
import Verif.Model.Ast

/-
Model of src/formatting/reconstruction.rs. `reconstruct_node_tree` does two things in one walk that
do not influence each other: it fills in the options of tables and converts string literals, and it
grows `State::pos_range`. The model has one function for each.
-/
namespace Luafmt

/-- What a node hands to its children as `is_single_child`, reconstruction.rs:164-171, 185-191. -/
def childSingle (over : Option Bool) (t : Tag) (kids : Nat) : Option Bool :=
  match t with
  | .fields _ _ _ => some (kids == 1)
  | .fieldSequential => over
  | .tableConstructor _ single => some (over.getD (single.getD true))
  | _ => none

/-- Is a node a `FieldSequential`? -/
def Node.isSeq (n : Node) : Bool :=
  match n.tag with
  | .fieldSequential => true
  | _ => false

/-- `FieldsOpts::is_iv_table` of a node. -/
def Node.isIv (n : Node) : Option Bool :=
  match n.tag with
  | .fields _ iv _ => iv
  | _ => none

/-- The new tag of a node, given its old tag, the inherited `is_single_child` and its annotated
children, reconstruction.rs:160-209. -/
def annotateTag (c : Config) (over : Option Bool) (t : Tag) (kids : List Node) : Tag :=
  match t with
  | .fields seps _ single => .fields seps (some (kids.all Node.isSeq)) (over.or single)
  | .tableConstructor iv single =>
    .tableConstructor (match kids with
      | [n] => n.isIv
      | _ => iv) (some (over.getD (single.getD true)))
  | .charStringLiteral s =>
    if c.bool .convertCharstringToNormalstring = some true then .normalStringLiteral (charToNormal s)
    else .charStringLiteral s
  | t => t

mutual
/-- `reconstruct_node_tree` without the range, src/formatting/reconstruction.rs:27-215. -/
def annotate (c : Config) (over : Option Bool) : Node → Node
  | .mk tag span locs kids =>
    let ks := annotateAll c (childSingle over tag kids.length) kids
    .mk (annotateTag c over tag ks) span locs ks
/-- The children. -/
def annotateAll (c : Config) (over : Option Bool) : List Node → List Node
  | [] => []
  | n :: ns => annotate c over n :: annotateAll c over ns
end

/-- `update_pos_range`, src/formatting/reconstruction.rs:6-17. -/
def updatePosRange (level : Nat) (span : Loc) (pr : Option (Nat × Nat)) : Option (Nat × Nat) :=
  if level = 1 then
    match pr with
    | some (l, r) => if span.l < r ∧ l < span.r then some (min span.l l, max span.r r) else some (l, r)
    | none => none
  else pr

/-- Nodes for which `update_pos_range` is called: all but statement lists and field lists
(reconstruction.rs:140-150, 160); the pseudo node `funcNameItems` is not a node in Rust. -/
def Tag.updatesRange : Tag → Bool
  | .statementList | .fields _ _ _ | .funcNameItems _ => false
  | _ => true

/-- The block level of the children, reconstruction.rs:140-146. -/
def Tag.childLevel (level : Nat) : Tag → Nat
  | .statementList => level + 1
  | _ => level

mutual
/-- The effect of `reconstruct_node_tree` on `State::pos_range`,
src/formatting/reconstruction.rs:27-215. -/
def growRange (level : Nat) : Node → Option (Nat × Nat) → Option (Nat × Nat)
  | .mk tag span _ kids, pr =>
    growRangeAll (tag.childLevel level) kids
      (if tag.updatesRange then updatePosRange level span pr else pr)
/-- The children, in order. -/
def growRangeAll (level : Nat) : List Node → Option (Nat × Nat) → Option (Nat × Nat)
  | [], pr => pr
  | n :: ns, pr => growRangeAll level ns (growRange level n pr)
end

end Luafmt
