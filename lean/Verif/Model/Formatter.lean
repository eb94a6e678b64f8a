import Verif.Model.Parser
import Verif.Model.Reconstruct

/-
Model of src/formatter.rs (`process_buffer_with_config`) and of reading a configuration file,
src/config.rs:279-326.
-/
namespace Luafmt

/-- `FormatterError`, src/formatter.rs:12-19, without the texts it carries. -/
inductive FErr where
  | reading
  | noConfigureFile
  | invalidConfigFile
  | parsing
  | formatting
  deriving DecidableEq, Repr

/-- Outcome of a formatting request: the formatted text, an error, or a panic. -/
inductive Out where
  | ok (s : Str)
  | error (e : FErr)
  | panic
  deriving DecidableEq, Repr

/-- The range in which the tree is formatted: `line_range_to_pos_range` grown by
`reconstruct_node_tree`, src/formatter.rs:76-78. -/
def effectiveRange (c : Config) (src : Str) (tree : Node) : Res (Option (Nat × Nat)) := do
  let pr ← lineRangeToPosRange src c.lineRange
  pure (growRange 0 tree pr)

/-- Reconstruct and write a parsed tree, src/formatter.rs:72-83. -/
def formatTree (c : Config) (src : Str) (tree : Node) : Res Str := do
  let pr ← effectiveRange c src tree
  writeTree ⟨src, pr⟩ c (annotate c none tree)

/-- `process_buffer_with_config`, src/formatter.rs:64-87 (the `verbose` line is in `Verif.Model.Main`). -/
def format (c : Config) (src : Str) : Out :=
  match parseLua src with
  | none => .error .parsing
  | some tree =>
    match formatTree c src tree with
    | .ok s => .ok s
    | .err => .error .formatting
    | .panic => .panic

/-- The value that an expression gives to an option, src/config.rs:285-291. -/
def optionValue (n : Node) : Option Str :=
  match n.tag with
  | .numeral s | .normalStringLiteral s | .charStringLiteral s => some s
  | .true_ => some L!"true"
  | .false_ => some L!"false"
  | _ => none

/-- The option that a variable names, src/config.rs:285-291. -/
def optionName (n : Node) : Option Str :=
  match n.tag with
  | .name s => some s
  | _ => none

/-- The `VarsExprs` arm of `load_options_from_config`, src/config.rs:282-295: first variable and first
expression only. -/
def assignment (vars exprs : Node) : Option (Str × Str) :=
  match vars.tag, exprs.tag with
  | .varList _, .expList _ =>
    match vars.kids.head?.bind optionName, exprs.kids.head?.bind optionValue with
    | some n, some v => some (n, v)
    | _, _ => none
  | _, _ => none

mutual
/-- The assignments that `load_options_from_config` performs, in order, src/config.rs:279-304. -/
def configAssignments : Node → List (Str × Str)
  | .mk .varsExprs _ _ [vars, exprs] => (assignment vars exprs).toList
  | .mk .statementList _ _ kids => configAssignmentsAll kids
  | _ => []
/-- The statements of a list, in order. -/
def configAssignmentsAll : List Node → List (Str × Str)
  | [] => []
  | n :: ns => configAssignments n ++ configAssignmentsAll ns
end

/-- `set` for each of the assignments. -/
def Config.setAll (c : Config) (l : List (Str × Str)) : Config :=
  l.foldl (fun c p => c.set p.1 p.2) c

/-- The node that holds the statements of a chunk, src/config.rs:314-318. -/
def chunkBody (n : Node) : Option Node :=
  match n with
  | .mk .chunk _ _ [b] => some b
  | .mk .sheBangChunk _ _ [_, b] => some b
  | _ => none

/-- `reload_format_from_file`, src/config.rs:306-326, for the content of the file; `none` is the
error case (the file does not parse). -/
def Config.reload (c : Config) (content : Str) : Option Config :=
  match parseLua content with
  | none => none
  | some tree =>
    match chunkBody tree with
    | some b => some (c.setAll (configAssignments b))
    | none => some c

end Luafmt
