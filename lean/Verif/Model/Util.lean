import Verif.Model.Config

/-
Model of src/formatting/util.rs, src/parser/common.rs and of `update_indexes`.
-/
namespace Luafmt

/-- What stays fixed while a tree is written: the source text (`buf`) and `State::pos_range`. -/
structure Env where
  buf : Str
  posRange : Option (Nat × Nat)

/-- `State::chars_to_bytes` as filled by `update_indexes`, src/formatting/reconstruction.rs:19-25:
character index to byte offset, plus one entry for the end of the text. For the empty text the
only entry is `1 ↦ 0`. -/
def charToByte (buf : Str) (i : Nat) : Option Nat :=
  match buf with
  | [] => if i = 1 then some 0 else none
  | c :: s => if i ≤ (c :: s).length then some (byteLen ((c :: s).take i)) else none

/-- `Loc::substr`, src/parser/common.rs:15-29. `src` is the text the index table was built from,
`buf` the text that is sliced (a gap text for the comment printer). -/
def substr (src : Str) (loc : Loc) (buf : Str) (offset : Nat) : Res Str :=
  match charToByte src (loc.l + offset), charToByte src (loc.r + offset), charToByte src offset with
  | some from_, some to, some bo =>
    if bo ≤ from_ ∧ bo ≤ to then
      match sliceBytes (from_ - bo) (to - bo) buf with
      | some s => .ok s
      | none => .panic
    else .ok []
  | _, _, _ => .ok []

/-- `test_out_of_range`, src/formatting/util.rs:72-78. -/
def outOfRange (range : Option (Nat × Nat)) (span : Loc) : Bool :=
  match range with
  | some (l, r) => span.r ≤ l || r ≤ span.l
  | none => false

/-- `test_not_completely_contained`, src/formatting/util.rs:80-86. -/
def notContained (range : Option (Nat × Nat)) (span : Loc) : Bool :=
  match range with
  | some (l, r) => (span.l < l && l < span.r) || (span.l < r && r < span.r)
  | none => false

/-- `trim_end_spaces_and_tabs`, src/formatting/util.rs:88-90. -/
def trimEndSpaces (s : Str) : Str := dropEndWhile (fun c => c == ' ' || c == '\t') s

/-- `get_len_till_newline`, src/formatting/util.rs:96-98. -/
def lenTillNewline (s : Str) : Nat := (s.takeWhile (· != '\n')).length

/-- `get_len_after_newline`, src/formatting/util.rs:92-94. -/
def lenAfterNewline (s : Str) : Nat := lenTillNewline s.reverse

/-- `has_newlines`, src/formatting/util.rs:100-102. -/
def hasNewlines (s : Str) : Bool := s.contains '\n'

/-- Loop of `charstring_to_normalstring`; `escaped` is the loop variable of the same name. -/
def charToNormalGo (escaped : Bool) : Str → Str
  | [] => []
  | ch :: s =>
    let escaped' := !escaped && ch == '\\'
    if ch == '"' && !escaped then '\\' :: '"' :: charToNormalGo escaped' s
    else ch :: charToNormalGo escaped' s

/-- `charstring_to_normalstring`, src/formatting/util.rs:104-119. -/
def charToNormal (s : Str) : Str := charToNormalGo false s

/-- `write_indent`, src/formatting/util.rs:121-128: the text that is written. -/
def indentText (c : Config) (lvl : Int) : Str :=
  match c.str .indentationString with
  | some s => (List.replicate lvl.toNat s).flatten
  | none => []

/-- Positions of the newline characters, counted from `i`. -/
def newlinePositions (i : Nat) : Str → List Nat
  | [] => []
  | ch :: s => if ch = '\n' then i :: newlinePositions (i + 1) s else newlinePositions (i + 1) s

/-- The vector `nlpos` of `line_range_to_pos_range`, src/formatting/util.rs:131-133. -/
def nlpos (buf : Str) : List Nat := 0 :: newlinePositions 0 buf ++ [buf.length]

/-- `line_range_to_pos_range`, src/formatting/util.rs:130-149. A failing index would be a panic. -/
def lineRangeToPosRange (buf : Str) (lr : Option (Nat × Nat)) : Res (Option (Nat × Nat)) :=
  match lr with
  | none => .ok none
  | some (l, r) =>
    let ps := nlpos buf
    let left := if 0 < l ∧ l ≤ r ∧ l < ps.length then l else 1
    let right := if 0 < r ∧ l ≤ r ∧ r < ps.length then r else ps.length - 1
    match ps[left - 1]?, ps[right]? with
    | some a, some b => .ok (some (a, b))
    | _, _ => .panic

end Luafmt
