import Verif.Model.Write

/-
The recursion of `Node::configured_write` as the Rust code does it: the one-line tests of tables, `if`
statements and function bodies call `configured_write` on the same node again
(src/parser/lua_ast.rs:341-427, 569, 1006, 1188). The function below counts calls; when the count is
used up it calls `stop`, which may be anything.
-/
namespace Luafmt.Spec
open Luafmt

/-- An arm of `configured_write` after its range test; `self` is `configured_write` of the same node. -/
def armAgain (env : Env) (tag : Tag) (span : Loc) (locs : List Loc) (rs : List R) (self : Config → W)
    (c : Config) : W := fun st =>
  match onelineCfg c tag span st with
  | none => plainW env tag span locs rs c st
  | some tc => do
    let (st, x) ← testOnelineNoNl tc self st
    match x with
    | some line =>
      let st := match tag with
        | .tableConstructor _ _ =>
          { st with cells := { st.cells with oneline := upd st.cells.oneline span.l true } }
        | _ => st
      pure (st.put line)
    | none => plainW env tag span locs rs c st

/-- `configured_write` of a node with the given writers of its children and of itself. -/
def writeAgain (env : Env) (tag : Tag) (span : Loc) (locs : List Loc) (rs : List R) (self : Config → W)
    (c : Config) : W :=
  match tag.leafText with
  | some s => fun st => pure (st.put s)
  | none =>
    if tag.checksRange && outOfRange env.posRange span then locW env span
    else
      match tag.shape with
      | some sh =>
        if notContained env.posRange span then runAll (runSh env locs rs c) sh
        else armAgain env tag span locs rs self c
      | none => armAgain env tag span locs rs self c

/-- The writers of a node if at most `fuel` nested calls are made. -/
def limited (stop : Node → R) (env : Env) : Nat → Node → R
  | 0, n => stop n
  | fuel + 1, .mk tag span locs kids =>
    let rs := kids.map (limited stop env fuel)
    { node := .mk tag span locs kids
      w := writeAgain env tag span locs rs (limited stop env fuel (.mk tag span locs kids)).w
      wl := listW env tag span locs rs
      meth := fun c => runAll (runEl env locs rs c) [.lit [':'], .hint 0 [], .kid 0] }

mutual
/-- Height of a tree. -/
def height : Node → Nat
  | .mk _ _ _ kids => heights kids + 1
/-- Largest height of the trees. -/
def heights : List Node → Nat
  | [] => 0
  | n :: ns => max (height n) (heights ns)
end

/-- The width of the last line of a text. -/
def lastLineWidth (s : Str) : Nat := (s.reverse.takeWhile (fun ch => ch != '\n')).length

end Luafmt.Spec
