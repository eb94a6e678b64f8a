import Verif.Model.CommentWrite
import Verif.Model.Template

/-
Model of the printer: `Node::configured_write` and its helpers, src/parser/lua_ast.rs:136-1219,
`cfg_write_list` and `cfg_write_sep_list`, src/formatting/list.rs, and the decorations of
src/formatting/decoration.rs.
-/
namespace Luafmt

/-- The `Cell` fields of the tree: `TableConstructorOpts::is_oneline` and `FieldsOpts::has_indent`,
src/parser/lua_ast.rs:14-38. They are keyed by the start position of their node; two tables (or two
field lists) of one source never start at the same position. -/
structure Cells where
  oneline : Nat → Bool
  indent : Nat → Bool

/-- The part of `State` (src/config.rs:408-418) that changes while writing, the text written so far
(`f`) and the cells of the tree. Levels are `isize`; overflow is not modelled. -/
structure St where
  f : Str
  lvl : Int
  stack : List (Option Str)
  fn : Int
  cells : Cells

/-- A writer. -/
abbrev W := St → Res St

def St.put (st : St) (s : Str) : St := { st with f := st.f ++ s }

/-- `IncIndent`, src/formatting/decoration.rs:49-59. The stack's last element is the head here. -/
def incIndent (key : Option Str) (st : St) : St :=
  { st with
    lvl := if key.isNone || st.stack.head? != some key then st.lvl + 1 else st.lvl
    stack := key :: st.stack }

/-- `DecIndent`, src/formatting/decoration.rs:61-71. -/
def decIndent (st : St) : St :=
  let last := st.stack.head?
  let rest := st.stack.tail
  { st with
    lvl := if last == some none || rest.head? != last then st.lvl - 1 else st.lvl
    stack := rest }

/-- `CommentLocHint` as a writer. -/
def hintW (env : Env) (c : Config) (loc : Loc) (h : Str) : W := fun st => do
  let f ← commentHint env c st.lvl loc h st.f
  pure { st with f := f }

/-- `IfNewLine(b, CommentLocHint(loc, h))` as a writer. -/
def nlW (env : Env) (c : Config) (b : Bool) (loc : Loc) (h : Str) : W := fun st => do
  let f ← ifNewLine c st.lvl b (commentHint env c st.lvl loc) h st.f
  pure { st with f := f }

/-- `Loc::configured_write`, src/parser/common.rs:8-12. -/
def locW (env : Env) (loc : Loc) : W := fun st => do
  let s ← substr env.buf loc env.buf 0
  pure (st.put s)

/-- `test_oneline!`, src/formatting/util.rs:34-58, for the writer `w` that is run with the
configuration `c`. Returns the state (only the cells can have changed) and the text if it fits.
Without `max_width` the `unwrap` panics. If `w` fails the model forgets the cells it has set, Rust
keeps them; `w` never fails on parsed trees. -/
def testOneline (c : Config) (w : Config → W) (st : St) : Res (St × Option Str) :=
  match w c { st with f := [] } with
  | .panic => .panic
  | .err => .ok (st, none)
  | .ok st' =>
    match c.num .maxWidth with
    | none => .panic
    | some m =>
      .ok ({ st with cells := st'.cells },
        if lenAfterNewline st.f + lenTillNewline st'.f < m then some st'.f else none)

/-- `test_oneline_no_nl!`, src/formatting/util.rs:60-68. -/
def testOnelineNoNl (c : Config) (w : Config → W) (st : St) : Res (St × Option Str) := do
  let (st, r) ← testOneline c w st
  pure (st, match r with
    | some s => if hasNewlines s then none else some s
    | none => none)

/-- `span.1 - span.0 < 2 * cfg.fmt.max_width.unwrap_or(0)`, src/parser/lua_ast.rs:346, 369, 395, 413.
The product wraps around at 64 bits (release build; a debug build panics instead). -/
def narrow (c : Config) (span : Loc) : Bool :=
  span.r - span.l < 2 * (c.num .maxWidth).getD 0 % 2 ^ 64

/-- A child as its parent sees it: the node, its `configured_write`, its list writer
(`cfg_write_list`/`cfg_write_sep_list` on it), and, for a method call, the writer of
`":", CommentLocHint(&locs[0], ""), n1` (src/parser/lua_ast.rs:196-202). -/
structure R where
  node : Node
  w : Config → W
  wl : Config → St → Res (St × Bool)
  meth : Config → W

/-- `test_oneline_table_field`, src/parser/lua_ast.rs:363-375. -/
def testOnelineField (c : Config) (r : R) (st : St) : Res (St × Option Str) :=
  match r.node.tag with
  | .fieldNamedBracket | .fieldNamed | .fieldSequential =>
    if (c.num .maxWidth).isSome && (c.num .newlineFormatTableField).isSome && narrow c r.node.span then
      testOnelineNoNl c r.w st
    else pure (st, none)
  | _ => pure (st, none)

/-- The `Fields` arm of `need_newline`, src/parser/lua_ast.rs:169-192. -/
def needNewlineField (c : Config) (isIv : Option Bool) (prev : Node) (r : R) (st : St) :
    Res (St × Bool) :=
  if (c.num .newlineFormatTableField).isSome then
    if isIv = some true ∧ c.bool .forceSingleLineIvTableField = some true then
      if c.bool .forceSingleLineTable = some true then
        match prev.tag, prev.kids with
        | .fieldSequential, [n] =>
          match n.tag with
          | .tableConstructor _ _ =>
            if st.cells.oneline n.span.l then pure (st, true)
            else do
              let (st, x) ← testOnelineNoNl c r.w st
              pure (st, x.isSome)
          | _ => do
            let (st, x) ← testOnelineNoNl c r.w st
            pure (st, x.isNone)
        | _, _ => pure (st, false)
      else pure (st, false)
    else if c.bool .forceSingleLineKvTableField = some true ∧ isIv = some false then do
      let (st, x) ← testOnelineField c r st
      pure (st, x.isNone)
    else pure (st, true)
  else pure (st, false)

/-- The `VarSuffixList` arm of `need_newline`, src/parser/lua_ast.rs:193-214. -/
def needNewlineSuffix (c : Config) (r : R) (st : St) : Res (St × Bool) :=
  let test (w : Config → W) : Res (St × Bool) := do
    let (st, x) ← testOneline c w st
    pure (st, x.isNone)
  let guarded (k : Res (St × Bool)) : Res (St × Bool) :=
    if (c.num .newlineFormatVarSuffix).isSome then
      if c.bool .forceSingleLineVarSuffix = some true then k else pure (st, true)
    else pure (st, false)
  match r.node.tag with
  | .tableMember => guarded (test r.w)
  | .fnMethodCall => guarded
    (match (r.node.kids[1]?).map Node.tag with
     | some .tableConstructorEmpty | some (.tableConstructor _ _) | some .argsRoundBracketsEmpty =>
       test r.meth
     | some .argsRoundBrackets =>
       if (c.num .newlineFormatExpListFirst).isSome then test r.meth else test r.w
     | _ => test r.w)
  | _ => pure (st, false)

/-- `need_newline`, src/parser/lua_ast.rs:151-217, for an item `r` of a list with tag `parent` after
the item `prev`. -/
def needNewline (c : Config) (parent : Tag) (prev : Node) (r : R) (st : St) : Res (St × Bool) :=
  match parent with
  | .statementList => pure (st, (c.num .newlineFormatStatement).isSome)
  | .expList _ =>
    let isTable := match r.node.tag with
      | .tableConstructor _ _ => true
      | _ => false
    if isTable = true ∧ c.bool .writeNewlineAtExplistMultilineTable = some true ∧
        c.bool .writeNewlineAtMultilineTable = some false then pure (st, true)
    else if c.num .newlineFormatExpList = some 1 then
      if c.bool .forceSingleLineExpList = some true then do
        let (st, x) ← testOneline c r.w st
        pure (st, x.isNone)
      else pure (st, true)
    else pure (st, false)
  | .elseIfThenVec => pure (st, c.num .newlineFormatIf = some 1)
  | .fields _ isIv _ => needNewlineField c isIv prev r st
  | .varSuffixList => needNewlineSuffix c r st
  | _ => pure (st, false)

/-- `need_first_newline`, src/parser/lua_ast.rs:219-254, for the first item `r` of a list with tag
`parent` that starts at `pos`. -/
def needFirstNewline (c : Config) (parent : Tag) (pos : Nat) (r : R) (st : St) : Res (St × Bool) :=
  match parent with
  | .fields _ isIv isSingle =>
    if (c.num .newlineFormatTableField).isSome then
      if c.bool .forceSingleLineTable = some true ∧ isIv = some true ∧
          c.bool .forceSingleLineIvTableField = some true then
        pure (st, st.cells.indent pos || isSingle != some true)
      else if c.bool .forceSingleLineIvTableField = some true ∧ isIv = some true ∨
          c.bool .forceSingleLineKvTableField = some true ∧ isIv = some false then do
        let (st, x) ← testOnelineField c r st
        pure (st, x.isNone)
      else pure (st, true)
    else pure (st, false)
  | .expList _ =>
    if c.num .newlineFormatExpListFirst = some 1 then
      if c.bool .forceSingleLineExpList = some true then do
        let (st, x) ← testOneline c r.w st
        pure (st, x.isNone)
      else pure (st, true)
    else pure (st, false)
  | .varSuffixList => needNewlineSuffix c r st
  | _ => pure (st, false)

/-- `list_item_prefix_hint`, src/parser/lua_ast.rs:136-149. -/
def itemHint : Tag → Str
  | .semicolon | .argsRoundBrackets | .argsRoundBracketsEmpty | .tableIndex | .tableMember
  | .fnMethodCall | .tableConstructor _ _ | .tableConstructorEmpty => []
  | _ => [' ']

/-- `need_newlines` of both list traits, src/parser/lua_ast.rs:310-317, 329-337. -/
def needNewlines (c : Config) : Tag → Bool
  | .fields _ _ _ => (c.num .newlineFormatTableField).isSome
  | .expList _ => (c.num .newlineFormatExpList).isSome || (c.num .newlineFormatExpListFirst).isSome
  | .statementList => (c.num .newlineFormatStatement).isSome
  | .elseIfThenVec => (c.num .newlineFormatIf).isSome
  | .varSuffixList => (c.num .newlineFormatVarSuffix).isSome
  | _ => false

/-- `element_prefix_hint`, src/parser/lua_ast.rs:272-279. -/
def elementHint : Tag → Str
  | .fields _ _ _ | .expList _ | .nameList _ | .varList _ | .parList _ => [' ']
  | _ => []

/-- `separator`, src/parser/lua_ast.rs:281-289. -/
def separator (c : Config) : Tag → Option Str
  | .fields _ _ _ => c.str .fieldSeparator
  | .expList _ | .nameList _ | .varList _ | .parList _ => some [',']
  | .funcName _ | .funcNameItems _ => some ['.']
  | _ => none

/-- `trailing_separator`, src/parser/lua_ast.rs:291-308, for a list that starts at `pos`. -/
def trailingSeparator (c : Config) (tag : Tag) (pos : Nat) (st : St) : Option Bool :=
  match tag with
  | .fields _ isIv _ =>
    if c.bool .forceSingleLineTable = some true ∧
        ((c.num .newlineFormatTableField).isNone ∧ (c.num .newlineFormatTableConstructor).isNone ∨
          isIv = some true ∧ st.cells.indent pos = false) then some false
    else c.bool .writeTrailingFieldSeparator
  | .expList _ | .nameList _ | .varList _ | .parList _ | .funcName _ | .funcNameItems _ => some false
  | _ => none

/-- An item `(Loc, Node, Loc, String)` of a separated list. -/
structure SepItem where
  pre : Loc
  item : R
  post : Loc
  sep : Str

/-- The items of a separated list from the encoding described at `Node`. -/
def sepItems : List Loc → List R → List Str → List SepItem
  | pre :: post :: ls, r :: rs, s :: ss => ⟨pre, r, post, s⟩ :: sepItems ls rs ss
  | _, _, _ => []

/-- Does a list ask its first item? src/formatting/list.rs:51-53, 95-97. -/
def askFirst (c : Config) (tag : Tag) (pos : Nat) (r : R) (st : St) : Res (St × Bool) :=
  if needNewlines c tag then needFirstNewline c tag pos r st else pure (st, false)

/-- Does a list ask a later item? src/formatting/list.rs:70-71, 115-116. -/
def askNext (c : Config) (tag : Tag) (prev : Node) (r : R) (st : St) : Res (St × Bool) :=
  if needNewlines c tag then needNewline c tag prev r st else pure (st, false)

/-- Gap before a later item of either list, src/formatting/list.rs:66-77, 108-122: verbatim if out
of range, otherwise a hint with a possible newline. Returns whether there was a newline. -/
def itemGap (env : Env) (c : Config) (tag : Tag) (prev : Node) (r : R) (gap : Loc) (h : Str)
    (st : St) : Res (St × Bool) :=
  if outOfRange env.posRange gap then do
    let st ← locW env gap st
    pure (st, false)
  else do
    let (st, nl) ← askNext c tag prev r st
    let st ← nlW env c nl gap h st
    pure (st, nl)

/-- `get_sep` of `cfg_write_sep_list`, src/formatting/list.rs:42-47. -/
def getSep (c : Config) (tag : Tag) (it : SepItem) : Str := (separator c tag).getD it.sep

/-- The loop of `cfg_write_sep_list`, src/formatting/list.rs:60-82, and its end, 84-88. -/
def sepRest (env : Env) (c : Config) (tag : Tag) (pos : Nat) :
    SepItem → List SepItem → Bool → St → Res (St × Bool)
  | last, [], ind, st =>
    let tr := trailingSeparator c tag pos st
    if tr = none ∧ last.sep ≠ [] ∨ tr = some true then pure (st.put (getSep c tag last), ind)
    else pure (st, ind)
  | prev, it :: its, ind, st => do
    let st := st.put (getSep c tag prev)
    let (st, nl) ← itemGap env c tag prev.item.node it.item it.pre (elementHint tag) st
    let st ← it.item.w c st
    let st ← hintW env c it.post [] st
    sepRest env c tag pos it its (ind || nl) st

/-- `cfg_write_sep_list`, src/formatting/list.rs:33-92. -/
def sepList (env : Env) (c : Config) (tag : Tag) (pos : Nat) (items : List SepItem) (st : St) :
    Res (St × Bool) :=
  match items with
  | [] => pure (st, false)
  | first :: rest => do
    let (st, nl) ← askFirst c tag pos first.item st
    let st ← nlW env c nl first.pre [] st
    let st ← first.item.w c st
    let st ← hintW env c first.post [] st
    sepRest env c tag pos first rest nl st

/-- The loop of `cfg_write_list`, src/formatting/list.rs:105-125. -/
def listRest (env : Env) (c : Config) (tag : Tag) :
    Node → List (Loc × R) → Bool → St → Res (St × Bool)
  | _, [], ind, st => pure (st, ind)
  | prev, (gap, r) :: its, ind, st => do
    let (st, nl) ← itemGap env c tag prev r gap (itemHint r.node.tag) st
    let st ← r.w c st
    listRest env c tag r.node its (ind || nl) st

/-- `cfg_write_list`, src/formatting/list.rs:94-131. -/
def plainList (env : Env) (c : Config) (tag : Tag) (pos : Nat) (items : List (Loc × R)) (st : St) :
    Res (St × Bool) :=
  match items with
  | [] => pure (st, false)
  | (gap, r) :: rest => do
    let (st, nl) ← askFirst c tag pos r st
    let st ← nlW env c nl gap [] st
    let st ← r.w c st
    listRest env c tag r.node rest nl st

/-- The separators stored in the tag of a separated list. -/
def Tag.seps : Tag → Option (List Str)
  | .fields s _ _ | .expList s | .nameList s | .parList s | .varList s | .funcName s
  | .funcNameItems s => some s
  | _ => none

/-- Lists without separators. -/
def Tag.isPlainList : Tag → Bool
  | .statementList | .varSuffixList | .elseIfThenVec => true
  | _ => false

/-- The list writer of a node (`cfg_write_sep_list` or `cfg_write_list`); other nodes have no items
and nothing is written (src/formatting/list.rs:40, 89). -/
def listW (env : Env) (tag : Tag) (span : Loc) (locs : List Loc) (kids : List R) (c : Config)
    (st : St) : Res (St × Bool) :=
  match tag.seps with
  | some ss => sepList env c tag span.l (sepItems locs kids ss) st
  | none =>
    if tag.isPlainList then plainList env c tag span.l (locs.zip kids) st else pure (st, false)

/-- `test_indent`, src/parser/lua_ast.rs:429-476, as used by its callers
(`.. == Ok(true)`). -/
def testIndent (env : Env) (c : Config) (r : R) (loc : Loc) (h : Str) (st : St) : Res (St × Bool) :=
  let listTest (st1 : St) : Res (St × Bool) :=
    match r.wl c st1 with
    | .panic => .panic
    | .err => .ok (st, false)
    | .ok (st2, b) => .ok ({ st with cells := st2.cells }, b)
  let withHint (k : St → Res (St × Bool)) : Res (St × Bool) :=
    match hintW env c loc h st with
    | .panic => .panic
    | .err => .ok (st, false)
    | .ok st1 => k st1
  match r.node.tag with
  | .varSuffixList =>
    if r.node.kids = [] then pure (st, false)
    else withHint fun st1 =>
      if c.bool .indentVarSuffix = some true then
        if c.bool .indentOneLineVarSuffix = some true then pure (st, true) else listTest st1
      else pure (st, false)
  | .expList _ =>
    if r.node.kids = [] then pure (st, false)
    else if r.node.kids.length = 1 ∧ (c.num .newlineFormatExpListFirst).isNone then
      pure (st, decide (c.bool .indentExpList = some true ∧ c.bool .indentOneLineExpList = some true))
    else withHint fun st1 =>
      if c.bool .indentExpList = some true then
        if c.bool .indentOneLineExpList = some true then pure (st, true) else listTest st1
      else pure (st, false)
  | .fields _ _ _ =>
    if r.node.kids = [] then pure (st, false) else withHint listTest
  | _ => pure (st, false)

/-- Access to `locs[i]`; the Rust arrays have a fixed length, so the default is never used. -/
def locAt (locs : List Loc) (i : Nat) : Loc := locs[i]?.getD ⟨0, 0⟩

/-- Writing the `i`-th child; a missing child cannot occur for the Rust types (modelled as panic). -/
def kidW (kids : List R) (i : Nat) (c : Config) : W := fun st =>
  match kids[i]? with
  | some r => r.w c st
  | none => .panic

/-- One argument of `out_of_range_write!`. -/
def runSh (env : Env) (locs : List Loc) (kids : List R) (c : Config) : Sh → W
  | .lit s => fun st => pure (st.put s)
  | .gap i => locW env (locAt locs i)
  | .kid i => kidW kids i c

/-- One argument of `cfg_write!`. -/
def runEl (env : Env) (locs : List Loc) (kids : List R) (c : Config) : El → W
  | .lit s => fun st => pure (st.put s)
  | .hint i h => hintW env c (locAt locs i) h
  | .nl b i h => nlW env c b (locAt locs i) h
  | .kid i => kidW kids i c
  | .inc => fun st => pure (incIndent none st)
  | .dec => fun st => pure (decIndent st)
  | .incF => fun st => pure { st with fn := st.fn + 1 }
  | .decF => fun st => pure { st with fn := st.fn - 1 }

/-- Run the arguments of a macro one after the other (`cfg_write!`, src/config.rs:20-26). -/
def runAll {α : Type} (run : α → W) : List α → W
  | [], st => pure st
  | x :: xs, st => do
    let st ← run x st
    runAll run xs st

/-- One step of an arm. -/
def runFm (env : Env) (locs : List Loc) (kids : List R) (c : Config) : Fm → W
  | .el e => runEl env locs kids c e
  | .ind k i h body => fun st =>
    match kids[k]? with
    | none => .panic
    | some r => do
      let (st, ind) ← testIndent env c r (locAt locs i) h st
      let st ← runAll (runEl env locs kids c) body (if ind then incIndent none st else st)
      pure (if ind then decIndent st else st)

/-- The arm of `BinaryOp` after its range test, src/parser/lua_ast.rs:489-506. -/
def binaryW (env : Env) (op : Str) (locs : List Loc) (kids : List R) (c : Config) : W := fun st => do
  let st ← kidW kids 0 c (incIndent (some op) st)
  let nl1 : Bool := c.num .newlineFormatBinaryOp = some 1
  let nl2 : Bool := c.num .newlineFormatBinaryOp = some 2
  let (st, one) ←
    if (nl1 || nl2) = true ∧ c.bool .forceSingleLineBinaryOp = some true then do
      let (st, x) ← testOneline c (fun c => runAll (runEl env locs kids c)
        [.hint 0 [' '], .lit op, .hint 1 [' '], .kid 1]) st
      pure (st, x.isSome)
    else pure (st, false)
  runAll (runEl env locs kids c)
    [.nl (nl1 && !one) 0 [' '], .lit op, .nl (nl2 && !one) 1 [' '], .kid 1, .dec] st

/-- The arm of `TableConstructor` after its range and one-line tests, src/parser/lua_ast.rs:577-608.
Line 583 writes a gap with location `(0, 0)` before the brace. -/
def tableW (env : Env) (isIv isSingle : Option Bool) (span : Loc) (locs : List Loc) (kids : List R)
    (c : Config) : W := fun st => do
  let hint := (c.str .hintTableConstructor).getD []
  let bnl : Bool := c.bool .writeNewlineAtMultilineTable = some true && !st.cells.oneline span.l
  let st ← nlW env c bnl ⟨0, 0⟩ hint st
  let st := { st.put ['{'] with fn := st.fn + 1 }
  match kids[0]? with
  | none => .panic
  | some r => do
    let (st, ind) ←
      if c.bool .forceSingleLineTable = some true ∧ isIv = some true ∧ isSingle = some true then
        testIndent env c r (locAt locs 0) hint st
      else pure (st, true)
    let st := match r.node.tag with
      | .fields _ _ _ =>
        { st with cells := { st.cells with indent := upd st.cells.indent r.node.span.l ind } }
      | _ => st
    let st ← hintW env c (locAt locs 0) hint (if ind then incIndent none st else st)
    let st ← r.w c st
    let nl : Bool := (c.num .newlineFormatTableConstructor = some 1 ||
      (match c.num .maxWidth with
       | some m => m ≤ lenAfterNewline st.f
       | none => false)) && ind
    let st := if ind then decIndent st else st
    let st ← nlW env c nl (locAt locs 1) hint { st with fn := st.fn - 1 }
    pure (st.put ['}'])

/-- The arm of `TableConstructorEmpty` after its range test, src/parser/lua_ast.rs:612-621. -/
def tableEmptyW (env : Env) (locs : List Loc) (c : Config) : W := fun st => do
  let hint := (c.str .hintTableConstructor).getD []
  let test ← commentHint env c st.lvl (locAt locs 0) hint []
  let st ← nlW env c (hasNewlines test) (locAt locs 0) hint (st.put ['{'])
  pure (st.put ['}'])

/-- An arm of `configured_write` after its range and one-line tests. -/
def plainW (env : Env) (tag : Tag) (span : Loc) (locs : List Loc) (kids : List R) (c : Config) : W :=
  match tag with
  | .binaryOp op => binaryW env op locs kids c
  | .tableConstructor isIv isSingle => tableW env isIv isSingle span locs kids c
  | .tableConstructorEmpty => tableEmptyW env locs c
  | _ =>
    match tag.template c with
    | some fms => runAll (runFm env locs kids c) fms
    | none => fun st => do
      let (st, _) ← listW env tag span locs kids c st
      pure st

/-- Nodes printed on one line if forced: the `if` statements, src/parser/lua_ast.rs:377-391. -/
def Tag.isIf : Tag → Bool
  | .ifThen | .ifThenB | .ifThenElse | .ifThenBElse | .ifThenElseB | .ifThenBElseB | .ifThenElseIf
  | .ifThenBElseIf | .ifThenElseIfElse | .ifThenBElseIfElse | .ifThenElseIfElseB
  | .ifThenBElseIfElseB => true
  | _ => false

/-- The function bodies, src/parser/lua_ast.rs:410. -/
def Tag.isFuncBody : Tag → Bool
  | .funcBody | .funcPBody | .funcBodyB | .funcPBodyB => true
  | _ => false

/-- The configuration of the one-line test, if there is one: `test_oneline_table_cfg`,
`test_oneline_if`, `test_oneline_function`, src/parser/lua_ast.rs:341-361, 377-427. -/
def onelineCfg (c : Config) (tag : Tag) (span : Loc) (st : St) : Option Config :=
  match tag with
  | .tableConstructor _ _ =>
    if (c.num .maxWidth).isSome && (c.num .newlineFormatTableConstructor).isSome &&
        c.bool .forceSingleLineTable == some true && narrow c span then
      some (((((c.setNum .newlineFormatTableConstructor none).setNum .newlineFormatTableField none
        ).setBool .writeTrailingFieldSeparator (some false)
        ).setBool .writeNewlineAtMultilineTable (some false)
        ).setBool .writeNewlineAtExplistMultilineTable (some false))
    else none
  | _ =>
    if tag.isIf then
      if (c.num .maxWidth).isSome && c.bool .forceSingleLineIf == some true &&
          (c.num .newlineFormatIf).isSome && narrow c span then
        some (c.setNum .newlineFormatIf none)
      else none
    else if tag.isFuncBody then
      if (c.num .maxWidth).isSome && (c.num .newlineFormatFunction).isSome && narrow c span &&
          ((st.fn == 0 && c.bool .forceSingleLineTopLevelFunction == some true) ||
            (decide (0 < st.fn) && c.bool .forceSingleLineScopedFunction == some true)) then
        some (c.setNum .newlineFormatFunction none)
      else none
    else none

/-- An arm of `configured_write` after its range test. The one-line test calls `configured_write`
on the same node with the option that enables the test switched off, so that call goes straight to
`plainW`; its range test has the same (negative) result again. -/
def armW (env : Env) (tag : Tag) (span : Loc) (locs : List Loc) (kids : List R) (c : Config) : W :=
  fun st =>
    match onelineCfg c tag span st with
    | none => plainW env tag span locs kids c st
    | some tc => do
      let (st, x) ← testOnelineNoNl tc (plainW env tag span locs kids) st
      match x with
      | some line =>
        let st := match tag with
          | .tableConstructor _ _ =>
            { st with cells := { st.cells with oneline := upd st.cells.oneline span.l true } }
          | _ => st
        pure (st.put line)
      | none => plainW env tag span locs kids c st

/-- Does the arm begin with `out_of_range_write!` or `out_of_range_only_write!`? All do except the
leaves and the chunks (src/parser/lua_ast.rs:546-559, 1041, 1173, 1207-1217). -/
def Tag.checksRange : Tag → Bool
  | .chunk | .sheBangChunk | .funcNameItems _ => false
  | _ => true

/-- `Node::configured_write`, src/parser/lua_ast.rs:480-1219. -/
def writeW (env : Env) (tag : Tag) (span : Loc) (locs : List Loc) (kids : List R) (c : Config) : W :=
  match tag.leafText with
  | some s => fun st => pure (st.put s)
  | none =>
    if tag.checksRange && outOfRange env.posRange span then locW env span
    else
      match tag.shape with
      | some sh =>
        if notContained env.posRange span then runAll (runSh env locs kids c) sh
        else armW env tag span locs kids c
      | none => armW env tag span locs kids c

mutual
/-- The writers of a node. -/
def mkR (env : Env) : Node → R
  | .mk tag span locs kids =>
    let rs := mkRs env kids
    { node := .mk tag span locs kids
      w := writeW env tag span locs rs
      wl := listW env tag span locs rs
      meth := fun c => runAll (runEl env locs rs c) [.lit [':'], .hint 0 [], .kid 0] }
/-- The writers of the children. -/
def mkRs (env : Env) : List Node → List R
  | [] => []
  | n :: ns => mkR env n :: mkRs env ns
end

/-- The state at the beginning, src/config.rs:420-432 and src/formatter.rs:73, src/parser/lua_ast.rs:14-38. -/
def St.init : St := ⟨[], 0, [], 0, ⟨fun _ => false, fun _ => false⟩⟩

/-- Writing a whole tree to an empty buffer, src/formatter.rs:80-83. -/
def writeTree (env : Env) (c : Config) (n : Node) : Res Str := do
  let st ← (mkR env n).w c St.init
  pure st.f

end Luafmt
