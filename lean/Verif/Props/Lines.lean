import Verif.Props.Output
import Verif.Proofs.LinesTree
import Verif.Proofs.LastLine

/-
C40, C41, C45: the lines of the output and their indentation. C30 again: the newline at the end.
-/
namespace Luafmt
open Spec

/-! ### C40 -/

/-- C40: in the tree of the output every place where a line is asked for begins a line, behind as many copies of
`indentation_string` as its level says, and the levels follow the nesting of the tree. Missing from the full claim: the
`end` behind an empty body of a numeric `for`, the `else` behind an empty `then` part, the exact place of the opening
brace of a table that begins an item of a list or an operand if the hint for tables is not empty (there it fails, see
below), such braces with `write_newline_at_multiline_table`, and configurations and programs whose tokens may be joined, as for C03, and line ranges. -/
theorem C40_lines_partial (c : Config) (src out : Str) (toks : List Token) (hh : BlankHints c)
    (hl : c.lineRange = none) (hf : format c src = .ok out) (ht : toksOf src = some (toks ++ [.eof]))
    (hk : KeepsApart c toks) :
    ∃ tree', parseLua out = some tree' ∧
      Landmarks c (LineStart c out) (fun n => OnOneLine c out n.span) 0 none false [] tree' := by
  obtain ⟨tree, ms, hp, hE, hL⟩ := format_marks hl hf
  obtain ⟨ts, e, os, es, es', h1, h2, hO, hos, h3, _, h5, _, h7, _⟩ := tree_elems hh (.inl ⟨rfl, hl⟩) hp hE
  have : toks = tokensOf es := by
    rw [toksOf, h1] at ht
    simp [h2, h3] at ht
    exact ht.symm
  subst this
  obtain ⟨tree', h8, h9⟩ := outs_pair hp h1 h2 hO (h7 hk).lex rfl
  exact ⟨tree', h8, (chunk_lines h9).2.2.1 0 none false [] hL⟩

/-- A configuration that asks for all line breaks. -/
def lining : Config := cfg [(L!"indentation_string", L!"  "), (L!"newline_format_statement", L!"1"),
  (L!"newline_format_if", L!"1"), (L!"newline_format_for", L!"1"), (L!"newline_format_while", L!"1"),
  (L!"newline_format_function", L!"1"), (L!"newline_format_repeat_until", L!"1"), (L!"newline_format_do_end", L!"1"),
  (L!"newline_format_table_constructor", L!"1")]

def liningSrc : Str :=
  L!"local t={1;x=2} function f(a) if a then -- c\n b() elseif d then g() else return 1 end end while x do y() end return t\n"

/-- The hypotheses hold for a program with nested blocks and comments. -/
example : ∃ out toks, format lining liningSrc = .ok out ∧ lining.lineRange = none ∧ BlankHints lining ∧
    toksOf liningSrc = some (toks ++ [.eof]) ∧ KeepsApart lining toks := by
  refine ⟨L!"local t={1;x=2\n}\nfunction f(a)\n  if a then -- c\n    b()\n  elseif d then\n    g()\n  else\n    return 1\n  end\nend\nwhile x do\n  y()\nend\nreturn t\n",
    body liningSrc, by decide +kernel, rfl, by constructor <;> simp +decide [lining], by decide +kernel, ?_⟩
  exact keepsApart_of (by decide +kernel) (.inl (by decide +kernel))

/-- The options of that configuration ask for lines. -/
example (kids : List Node) : Breaks.At lining [] .ifThenB kids 2 1 ∧ Breaks.At lining [] .ifThenB kids 3 0 ∧
    Breaks.At lining [] .funcBodyB kids 1 1 ∧ ∀ n, ItemBreaks lining [] .statementList false n :=
  ⟨.inl ⟨_, _, rfl, by decide +kernel, by decide, by decide, (nomatch ·)⟩,
    .inl ⟨_, _, rfl, by decide +kernel, by decide, by decide, (nomatch ·)⟩,
    .inl ⟨_, _, rfl, by decide +kernel, by decide, by decide, (nomatch ·)⟩, fun _ => ⟨rfl, by decide +kernel⟩⟩

/-- Without `max_width` and an option for it no construct may be on one line. -/
theorem overruled_lining (u : Bool) (t : Tag) : overruled lining u t = [] := by
  unfold overruled
  rw [if_pos (by decide +kernel)]

/-- The tree of `if a then\nb()\nend` with the positions of its parts. -/
def flatIf : Node := .mk .ifThenB ⟨0, 16⟩ [⟨2, 3⟩, ⟨4, 5⟩, ⟨9, 10⟩, ⟨13, 14⟩]
  [.mk (.name L!"a") ⟨3, 4⟩ [] [], .mk .statementList ⟨10, 13⟩ [⟨10, 10⟩] []]

/-- Elsewhere than before a brace nothing but the indentation is behind the newline. -/
theorem Spec.LineStart.exact {c : Config} {text : Str} {p k : Nat} (h : LineStart c text p k)
    (hp : text[p]? ≠ some '{' := by decide) : ∃ before, text.take p = before ++ '\n' :: indentation c k := by
  obtain ⟨b, e | e⟩ := h
  · exact ⟨b, e⟩
  · exact absurd e.1 hp

/-- The conclusion excludes texts without the indentation, -/
example (Q : Node → Prop) : ¬ Landmarks lining (LineStart lining L!"if a then\nb()\nend") Q 0 none false [] flatIf := by
  rintro ⟨z, rfl | ⟨hz, _⟩, h⟩
  rotate_left
  · exact hz (overruled_lining _ _)
  obtain ⟨b, e⟩ := (h.1 2 1 _ (.inl ⟨_, _, rfl, by decide +kernel, by decide, by decide, (nomatch ·)⟩) rfl).exact
  have e' := congrArg List.getLast? e
  have : indentation lining (0 + 1) = [' ', ' '] := by decide +kernel
  rw [this] at e'
  revert e'
  simp

/-- and texts without the newline before `end`. -/
example (Q : Node → Prop) : ¬ Landmarks lining (LineStart lining L!"if a then\n  b() end") Q 0 none false []
    (.mk .ifThenB ⟨0, 19⟩ [⟨2, 3⟩, ⟨4, 5⟩, ⟨9, 12⟩, ⟨15, 16⟩] []) := by
  rintro ⟨z, rfl | ⟨hz, _⟩, h⟩
  rotate_left
  · exact hz (overruled_lining _ _)
  obtain ⟨b, e⟩ := (h.1 3 0 _ (.inl ⟨_, _, rfl, by decide +kernel, by decide, by decide, (nomatch ·)⟩) rfl).exact
  have e' := congrArg List.getLast? e
  simp [indentation] at e'

/-- C40 fails for `end` behind an empty body of a numeric `for` without step: it stays on the line. -/
theorem C40_fails_for_empty_for : lining.num .newlineFormatFor = some 1 ∧
    format lining L!"for i = 1, 2 do end" = .ok L!"for i = 1, 2 do end" := by
  decide +kernel

/-- C40 fails for `else` behind an empty `then` part: it stays on the line. -/
theorem C40_fails_for_empty_then : lining.num .newlineFormatIf = some 1 ∧
    format lining L!"if a then else b() end" = .ok L!"if a then else\n  b()\nend" := by
  decide +kernel

/-- A configuration that spreads tables, lists, chains and operations over lines. -/
def spreading : Config := cfg [(L!"indentation_string", L!"  "), (L!"newline_format_table_field", L!"1"),
  (L!"newline_format_table_constructor", L!"1"), (L!"newline_format_exp_list", L!"1"),
  (L!"newline_format_exp_list_first", L!"1"), (L!"newline_format_binary_op", L!"1"),
  (L!"newline_format_var_suffix", L!"1"), (L!"indent_exp_list", L!"true"), (L!"indent_var_suffix", L!"true")]

def spreadingSrc : Str := L!"t={1,x=a+b+c*d} f(p,q):g().h()\n"

/-- The hypotheses hold for a program with a table, operations, arguments and a chain of calls. -/
example : ∃ out toks, format spreading spreadingSrc = .ok out ∧ spreading.lineRange = none ∧ BlankHints spreading ∧
    toksOf spreadingSrc = some (toks ++ [.eof]) ∧ KeepsApart spreading toks := by
  refine ⟨L!"t=\n  {\n    1,\n    x=a\n      +b\n      +c\n        *d\n  } f(\n    p,\n    q)\n  :g()\n  .h()\n",
    body spreadingSrc, by decide +kernel, rfl, by constructor <;> simp +decide [spreading], by decide +kernel, ?_⟩
  exact keepsApart_of (by decide +kernel) (.inl (by decide +kernel))

/-- Its options ask for lines before fields, expressions, suffixes and operators. -/
example (a s : List Str) (b d : Bool) (loc : Loc) :
    ItemBreaks spreading [] (.fields a b d) true (.mk (.name L!"x") loc [] []) ∧
    ItemBreaks spreading [] (.expList s) true (.mk (.name L!"x") loc [] []) ∧
    ItemBreaks spreading [] (.expList s) false (.mk (.name L!"x") loc [] []) ∧
    ItemBreaks spreading [] .varSuffixList true (.mk .tableMember loc [] []) ∧
    ∀ kids, OperatorBreaks spreading kids 0 := by
  refine ⟨⟨?_, by simp, ?_, ?_, (nomatch ·)⟩, .inl ⟨?_, ?_, (nomatch ·)⟩, .inl ⟨?_, ?_, (nomatch ·)⟩, ⟨?_, ?_, .inl rfl⟩, fun _ => ⟨?_, .inl ⟨rfl, ?_⟩⟩⟩ <;>
    decide +kernel

/-- The conclusion excludes an operator that is not indented. -/
example (Q : Node → Prop) (a b : Node) : ¬ Landmarks spreading (LineStart spreading L!"a\n+b") Q 0 none false []
    (.mk (.binaryOp L!"+") ⟨0, 4⟩ [⟨1, 2⟩, ⟨3, 3⟩] [a, b]) := by
  rintro ⟨z, _, h⟩
  obtain ⟨t, e⟩ := (h.2.2.1 0 _ _ rfl ⟨by decide +kernel, .inl ⟨rfl, by decide +kernel⟩⟩ rfl).exact
  have e' := congrArg List.getLast? e
  have : indentation spreading (0 + operatorDepth none L!"+") = [' ', ' '] := by decide +kernel
  rw [this] at e'
  revert e'
  simp

/-- Its lists have to be indented, -/
example (s : List Str) (a b : Loc) : HasIndent spreading (.mk (.expList s) a [] [.mk (.name L!"x") b [] []]) ∧
    HasIndent spreading (.mk .varSuffixList a [] [.mk .fnMethodCall b [] []]) := by
  refine ⟨⟨?_, .inr ⟨0, _, rfl, .inl ⟨?_, ?_, (nomatch ·)⟩⟩⟩, ⟨?_, .inr ⟨0, _, rfl, ?_, ?_, .inr rfl⟩⟩⟩ <;> decide +kernel

/-- so the conclusion excludes arguments that begin a line but are not indented. -/
example (Q : Node → Prop) : ¬ Landmarks spreading (LineStart spreading L!"f(\nx)") Q 0 none false []
    (.mk .argsRoundBrackets ⟨1, 5⟩ [⟨2, 3⟩, ⟨4, 4⟩]
      [.mk (.expList [[]]) ⟨3, 4⟩ [⟨3, 3⟩, ⟨4, 4⟩] [.mk (.name L!"x") ⟨3, 4⟩ [] []]]) := by
  rintro ⟨z, _, h⟩
  obtain ⟨d, o', ⟨_, hd⟩, ⟨z', _, h1⟩⟩ := h.2.2.2.2.1
  have hI : HasIndent spreading (.mk (.expList [[]]) ⟨3, 4⟩ [⟨3, 3⟩, ⟨4, 4⟩] [.mk (.name L!"x") ⟨3, 4⟩ [] []]) :=
    ⟨by decide +kernel, .inr ⟨0, _, rfl, .inl ⟨by decide +kernel, by decide +kernel, (nomatch ·)⟩⟩⟩
  rw [if_neg (by simp [bodies])] at hd
  rcases hd with ⟨_, hd⟩ | ⟨rfl, _⟩
  · exact hd (by simp [listKids]) hI
  · obtain ⟨t, e⟩ := (h1.2.1 0 _ _ rfl (.inl ⟨by decide +kernel, by decide +kernel, (nomatch ·)⟩) rfl).exact
    have e' := congrArg List.getLast? e
    have : indentation spreading (0 + 1) = [' ', ' '] := by decide +kernel
    rw [this] at e'
    revert e'
    simp

/-- C40 fails for the exact place of the brace of a table that is a field: behind the newline the hint for tables is
written. -/
theorem C40_fails_for_inner_tables :
    format (cfg [(L!"replace_zero_spaces_with_hint", L!"true"), (L!"hint_table_constructor", L!" "),
      (L!"newline_format_table_field", L!"1")]) L!"t={{1},2}" = .ok L!"t =  {\n {\n1 },\n2 }" := by
  decide +kernel

/-- C40 fails for a table that begins an operation, with `write_newline_at_multiline_table`: its brace is put on a line of
its own, one level deeper than the field, and the line before it has a part of the indentation only. -/
theorem C40_fails_for_tables_on_lines :
    format (cfg [(L!"write_newline_at_multiline_table", L!"true"), (L!"indentation_string", L!"  "),
      (L!"newline_format_table_field", L!"1")]) L!"t={{1}..x,2}" =
      .ok L!"t=\n{\n \n    {\n      1}..x,\n  2}" := by
  decide +kernel

/-- Tables as items of lists begin lines, -/
example (a b : Option Bool) (s : List Str) (loc : Loc) (kids : List Node) :
    ItemBreaks spreading [] (.expList s) false (.mk (.tableConstructor a b) loc [] kids) ∧
    ItemBreaks spreading [] (.expList s) true (.mk (.binaryOp L!"..") loc [] [.mk (.tableConstructor a b) loc [] kids]) ∧
    format spreading L!"f({1},{2}..x)" = .ok L!"f(\n  {\n    1\n  },\n  {\n      2\n    }\n    ..x)" :=
  ⟨.inl ⟨by decide +kernel, by decide +kernel, fun _ => by decide +kernel⟩,
    .inl ⟨by decide +kernel, by decide +kernel, fun _ => by decide +kernel⟩, by decide +kernel⟩

/-- A configuration that puts the fields of tables, and all tables, on lines of their own. -/
def bracing : Config := cfg [(L!"write_newline_at_multiline_table", L!"true"), (L!"indentation_string", L!"  "),
  (L!"newline_format_table_field", L!"1")]

/-- with `write_newline_at_multiline_table` too, but not if they begin operations, -/
example (a b : Option Bool) (s : List Str) (loc : Loc) (kids : List Node) :
    ItemBreaks bracing [] (.fields s a b) true (.mk .fieldSequential loc [] [.mk (.tableConstructor a b) loc [] kids]) ∧
    ¬ BraceStays bracing (.mk (.binaryOp L!"..") loc [] [.mk (.tableConstructor a b) loc [] kids]) ∧
    format bracing L!"t={{1},2}" = .ok L!"t=\n{\n \n  {\n    1},\n  2}" :=
  ⟨⟨by decide +kernel, by decide +kernel, by decide +kernel, by decide +kernel, (nomatch ·)⟩,
    fun h => h rfl (by decide +kernel), by decide +kernel⟩

/-- With that configuration the brace of every table that is not empty begins a line. -/
example : BraceBreaks bracing [] (.tableConstructor none none) :=
  ⟨rfl, ⟨_, _, rfl⟩, by decide +kernel, by decide +kernel⟩

/-- The conclusion excludes a brace that is not on a line of its own. -/
example (Q : Node → Prop) (locs : List Loc) (kids : List Node) :
    ¬ Landmarks bracing (LineStart bracing L!"t={1}") Q 0 none false []
      (.mk (.tableConstructor none none) ⟨2, 5⟩ locs kids) := by
  rintro ⟨z, rfl | ⟨hz, _⟩, h⟩
  rotate_left
  · exact hz (by unfold overruled; rw [if_pos (by decide +kernel)])
  obtain ⟨b, e⟩ := h.2.2.2.1 ⟨rfl, ⟨_, _, rfl⟩, by decide +kernel, by decide +kernel⟩
  have hi : indentation bracing 0 = [] := rfl
  rw [hi] at e
  rcases e with e | ⟨_, e⟩
  all_goals
    have := congrArg (List.count '\n') e
    simp [List.count_append, List.count_cons] at this

/-- A configuration that puts the later tables of a list of expressions on lines. -/
def tabling : Config := cfg [(L!"write_newline_at_explist_multiline_table", L!"true"), (L!"indentation_string", L!"  "),
  (L!"write_newline_at_multiline_table", L!"false"), (L!"newline_format_exp_list_first", L!"1"), (L!"indent_exp_list", L!"true")]

/-- with this option only the tables of the later ones. -/
example (a b : Option Bool) (s : List Str) (loc : Loc) (kids : List Node) :
    ItemBreaks tabling [] (.expList s) false (.mk (.tableConstructor a b) loc [] kids) ∧
    ¬ ItemBreaks tabling [] (.expList s) false (.mk (.name L!"x") loc [] kids) ∧
    format tabling L!"f(a, b,{x=1}, c)" = .ok L!"f(\n  a, b,\n  {x=1}, c)" := by
  refine ⟨.inr ⟨rfl, ⟨a, b, rfl⟩, by decide +kernel, by decide +kernel, by decide +kernel, .inr (by decide +kernel)⟩, ?_,
    by decide +kernel⟩
  rintro (h | ⟨_, ⟨_, _, h⟩, _⟩)
  · exact absurd h.1 (by decide +kernel)
  · cases h

/-! ### C41 -/

/-- Every construct inside one whose places begin lines is on some level and its places begin lines, or it is inside a
construct that is on one line. -/
theorem Spec.Inside.landmarks {c : Config} {P : Nat → Nat → Prop} {Q : Node → Prop} {m n : Node} (h : Inside n m) :
    ∀ k o u, Landmarks c P Q k o u [] n →
      (∃ f v, Found u n v f ∧ Inside f m ∧ overruled c v f.tag ≠ [] ∧ Q f) ∨
      ∃ k' o' u', LandmarksWith c P Q k' o' u' [] m := by
  induction h with
  | @refl n =>
    intro k o u hL
    cases n
    obtain ⟨z, rfl | ⟨h1, _, h3⟩, hL⟩ := hL
    · exact .inr ⟨k, o, u, hL⟩
    · exact .inl ⟨_, _, .refl, .refl, h1, h3 rfl⟩
  | kid hk hi ih =>
    intro k o u hL
    obtain ⟨z, rfl | ⟨h1, _, h3⟩, hL⟩ := hL
    · have go : ∀ (ns : List Node) tag i, LandmarksAll c P Q k o u [] tag i ns → ∀ (j : Nat) x, ns[j]? = some x →
          ∃ k' o', Landmarks c P Q k' o' (u || nests tag (i + j)) [] x := by
        intro ns
        induction ns with
        | nil => intro _ _ _ j x hx; cases hx
        | cons a ns ih =>
          intro tag i ha j x hx
          obtain ⟨⟨d, o', _, h1⟩, h2⟩ := ha
          cases j with
          | zero => cases hx; exact ⟨_, _, h1⟩
          | succ j =>
            have := ih _ _ h2 j x (by simpa using hx)
            rwa [show i + 1 + j = i + (j + 1) by omega] at this
      obtain ⟨j, hj⟩ := List.getElem?_of_mem hk
      obtain ⟨k', o', h'⟩ := go _ _ _ hL.2.2.2.2 j _ hj
      rw [Nat.zero_add] at h'
      refine (ih k' o' _ h').imp_left fun ⟨f, v, h1, h2⟩ => ⟨f, v, .kid hj h1, h2⟩
    · exact .inl ⟨_, _, .refl, .kid hk hi, h1, h3 rfl⟩

/-- The construct `m` of `tree` is, or is inside, an `if` statement, a table or a function that an option allows to put
on one line (for functions one option if they are nested and another if not), and which is on one line of `text`, shorter than `max_width`. -/
def Spec.Folded (c : Config) (text : Str) (tree m : Node) : Prop :=
  ∃ f inner, Found false tree inner f ∧ Inside f m ∧ overruled c inner f.tag ≠ [] ∧ OnOneLine c text f.span

/-- C41: the items of one list that begin lines are indented alike: in the tree of the output, for each list of
statements, of fields, of expressions, of `elseif` clauses and of suffixes there is one level such that all its items
for which a line is asked begin a line with this indentation, unless the list is on one line together with the construct
it is in. Missing from the full claim: programs whose tokens may be
joined (as for C03) and line ranges. -/
theorem C41_items_are_aligned_partial (c : Config) (src out : Str) (toks : List Token) (hh : BlankHints c)
    (hl : c.lineRange = none) (hf : format c src = .ok out) (ht : toksOf src = some (toks ++ [.eof]))
    (hk : KeepsApart c toks) :
    ∃ tree', parseLua out = some tree' ∧ ∀ tag span locs kids, Inside tree' (.mk tag span locs kids) →
      Folded c out tree' (.mk tag span locs kids) ∨
      ∃ k, ∀ i n loc, kids[i]? = some n → ItemBreaks c [] tag (i == 0) n → locs[itemPlace tag i]? = some loc →
        LineStart c out loc.r k := by
  obtain ⟨tree', h1, h2⟩ := C40_lines_partial c src out toks hh hl hf ht hk
  refine ⟨tree', h1, fun tag span locs kids hi => ?_⟩
  exact (hi.landmarks 0 none false h2).imp id fun ⟨k, o, _, h⟩ => ⟨k, h.2.1⟩

/-- The output of the example has an inner list with three such items: the fields of a table. -/
example : (parseLua L!"t = {\n  1,\n  2,\n  x = 3\n}").isSome = true ∧
    ∀ (s : List Str) (b d : Bool) loc, ItemBreaks spreading [] (.fields s b d) false (.mk .fieldSequential loc [] []) :=
  ⟨by decide +kernel, fun _ _ _ _ => ⟨by decide +kernel, by simp, by decide +kernel, by decide +kernel, (nomatch ·)⟩⟩

/-- The conclusion excludes two expressions on lines with different indentation. -/
example (a b : Loc) : ¬ ∃ k, ∀ i n loc, [Node.mk (.name L!"a") a [] [], Node.mk (.name L!"b") b [] []][i]? = some n →
    ItemBreaks spreading [] (.expList [L!","]) (i == 0) n →
    [Loc.mk 0 1, ⟨2, 2⟩, ⟨3, 6⟩][itemPlace (.expList [L!","]) i]? = some loc →
    LineStart spreading L!"\na,\n  b" loc.r k := by
  rintro ⟨k, h⟩
  obtain ⟨t, e⟩ := (h 0 _ _ rfl (.inl ⟨by decide +kernel, by decide +kernel, (nomatch ·)⟩) rfl).exact
  obtain ⟨u, e'⟩ := (h 1 _ _ rfl (.inl ⟨by decide +kernel, by decide +kernel, (nomatch ·)⟩) rfl).exact
  cases k with
  | zero =>
    have := congrArg List.getLast? e'
    simp [indentation] at this
  | succ k =>
    have h2 : indentation spreading (k + 1) = ' ' :: ' ' :: indentation spreading k := by
      have : (spreading.str .indentationString).getD [] = [' ', ' '] := by decide +kernel
      simp [indentation, this]
    rw [h2] at e
    have := congrArg List.length e
    simp at this
    omega

/-- C40 for braces: with `write_newline_at_multiline_table`, and without `force_single_line_table`, the opening brace of
every table of the output that is not empty begins a line with some indentation, unless the table is inside an `if`
statement or a function that is on one line. Missing from the full claim: programs whose tokens may be joined (as for C03),
line ranges, and the exact place if the hint for tables is not empty. -/
theorem C40_braces_partial (c : Config) (src out : Str) (toks : List Token) (hh : BlankHints c)
    (hl : c.lineRange = none) (hf : format c src = .ok out) (ht : toksOf src = some (toks ++ [.eof]))
    (hk : KeepsApart c toks) (hw : c.bool .writeNewlineAtMultilineTable = some true)
    (hn : c.bool .forceSingleLineTable ≠ some true) :
    ∃ tree', parseLua out = some tree' ∧ ∀ a b span locs kids, Inside tree' (.mk (.tableConstructor a b) span locs kids) →
      Folded c out tree' (.mk (.tableConstructor a b) span locs kids) ∨ ∃ k, LineStart c out span.l k := by
  obtain ⟨tree', h1, h2⟩ := C40_lines_partial c src out toks hh hl hf ht hk
  refine ⟨tree', h1, fun a b span locs kids hi => ?_⟩
  exact (hi.landmarks 0 none false h2).imp id fun ⟨k, o, _, h⟩ => ⟨k, h.2.2.2.1 ⟨rfl, ⟨a, b, rfl⟩, hw, hn⟩⟩

def bracingSrc : Str := L!"local t={x={1},y=f{2}} return {}\n"

/-- The hypotheses hold for a program with tables in tables and as arguments. -/
example : ∃ out toks, format bracing bracingSrc = .ok out ∧ bracing.lineRange = none ∧ BlankHints bracing ∧
    toksOf bracingSrc = some (toks ++ [.eof]) ∧ KeepsApart bracing toks ∧
    bracing.bool .writeNewlineAtMultilineTable = some true ∧ bracing.bool .forceSingleLineTable ≠ some true := by
  refine ⟨L!"local t=\n{\n  x=\n  {\n    1},\n  y=f\n  {\n    2}} return {}\n",
    body bracingSrc, by decide +kernel, rfl, by constructor <;> simp +decide [bracing], by decide +kernel, ?_, by decide +kernel,
    by decide +kernel⟩
  exact keepsApart_of (by decide +kernel) (.inl (by decide +kernel))

/-! ### C45 -/

/-- C45: in the tree of the output every construct is, or is inside, an `if` statement, a table or a function that is on
one line shorter than `max_width`, where an option allows that; or lines begin at all the places of the construct for
which lines are asked, with the indentation of one level. Missing from the full claim: the places named for C40, the
closing brace of a table without keys if `force_single_line_table` is set, programs whose tokens may be joined (as for
C03) and line ranges. -/
theorem C45_one_line_or_broken_partial (c : Config) (src out : Str) (toks : List Token) (hh : BlankHints c)
    (hl : c.lineRange = none) (hf : format c src = .ok out) (ht : toksOf src = some (toks ++ [.eof]))
    (hk : KeepsApart c toks) :
    ∃ tree', parseLua out = some tree' ∧ ∀ tag span locs kids, Inside tree' (.mk tag span locs kids) →
      Folded c out tree' (.mk tag span locs kids) ∨
      ∃ k, ∀ g d loc, Breaks.At c [] tag kids g d → locs[g]? = some loc → LineStart c out loc.r (k + d) := by
  obtain ⟨tree', h1, h2⟩ := C40_lines_partial c src out toks hh hl hf ht hk
  refine ⟨tree', h1, fun tag span locs kids hi => ?_⟩
  exact (hi.landmarks 0 none false h2).imp id fun ⟨k, o, _, h⟩ => ⟨k, h.1⟩

/-- A configuration that puts short constructs on one line. -/
def folding : Config := cfg [(L!"max_width", L!"24"), (L!"force_single_line_if", L!"true"),
  (L!"force_single_line_table", L!"true"), (L!"force_single_line_scoped_function", L!"true"),
  (L!"newline_format_if", L!"1"), (L!"newline_format_table_field", L!"1"), (L!"newline_format_table_constructor", L!"1"),
  (L!"newline_format_function", L!"1"), (L!"newline_format_statement", L!"1"), (L!"indentation_string", L!"  ")]

def foldingSrc : Str :=
  L!"if a then b() end if a then if b then c() end ddddddddddd() end local t = {x=1} local u = {x=1,yyyyyyyyyyyyy=2}\n"

/-- The hypotheses hold for a program with short and long constructs, -/
example : ∃ out toks, format folding foldingSrc = .ok out ∧ folding.lineRange = none ∧ BlankHints folding ∧
    toksOf foldingSrc = some (toks ++ [.eof]) ∧ KeepsApart folding toks := by
  refine ⟨L!"if a then b() end\nif a then\n  if b then c() end\n  ddddddddddd()\nend\nlocal t = {x=1}\nlocal u = {\n  x=1,\n  yyyyyyyyyyyyy=2\n}\n",
    body foldingSrc, by decide +kernel, rfl, by constructor <;> simp +decide [folding], by decide +kernel, ?_⟩
  exact keepsApart_of (by decide +kernel) (.inl (by decide +kernel))

/-- and its options allow `if` statements and tables on one line, and ask for lines in them otherwise. -/
example (kids : List Node) (a b : Option Bool) : overruled folding false .ifThenB ≠ [] ∧
    overruled folding false (.tableConstructor a b) ≠ [] ∧ Breaks.At folding [] .ifThenB kids 2 1 :=
  ⟨by decide +kernel, by
    simp only [overruled]
    rw [if_neg (by decide +kernel), if_pos (by decide +kernel)]
    simp, .inl ⟨_, _, rfl, by decide +kernel, by decide, by decide, (nomatch ·)⟩⟩

/-- Only functions inside others may be on one line with these options, -/
example : overruled folding false .funcBodyB = [] ∧ overruled folding true .funcBodyB = [.newlineFormatFunction] := by
  decide +kernel

/-- as here. -/
example : format folding L!"function f() g(function() h() end) end" =
    .ok L!"function f()\n  g(function() h() end)\nend" := by decide +kernel

/-- The conclusion excludes a function on one line that is not inside another one. -/
example (n : Node) (hn : n = .mk .funcBodyB ⟨10, 20⟩ [⟨11, 11⟩, ⟨12, 13⟩, ⟨16, 17⟩] []) :
    ¬ (Folded folding L!"function f() h() end" n n ∨
      ∃ k, ∀ g d loc, Breaks.At folding [] .funcBodyB [] g d → n.locs[g]? = some loc →
        LineStart folding L!"function f() h() end" loc.r (k + d)) := by
  subst hn
  rintro (⟨f, _, h1, _, h2, _, _⟩ | ⟨k, h⟩)
  · cases h1 with
    | refl => exact h2 (by decide +kernel)
    | kid hk => cases hk
  · obtain ⟨b, e⟩ := (h 1 1 ⟨12, 13⟩ (.inl ⟨_, _, rfl, by decide +kernel, by decide, by decide, (nomatch ·)⟩) rfl).exact
    have : '\n' ∈ (L!"function f() h() end").take 13 := by
      rw [show (13 : Nat) = (Loc.mk 12 13).r from rfl, e]
      simp
    revert this
    decide

/-- The conclusion excludes an `if` statement on two lines whose body does not begin a line. -/
example (n : Node) (hn : n = .mk .ifThenB ⟨0, 17⟩ [⟨2, 3⟩, ⟨4, 5⟩, ⟨9, 10⟩, ⟨13, 14⟩] []) :
    ¬ (Folded folding L!"if a then b()\nend" n n ∨
      ∃ k, ∀ g d loc, Breaks.At folding [] .ifThenB [] g d → n.locs[g]? = some loc →
        LineStart folding L!"if a then b()\nend" loc.r (k + d)) := by
  subst hn
  rintro (⟨f, _, h1, _, _, h2, _⟩ | ⟨k, h⟩)
  · cases h1 with
    | refl => exact h2 (by decide)
    | kid hk => cases hk
  · obtain ⟨b, e⟩ := (h 2 1 ⟨9, 10⟩ (.inl ⟨_, _, rfl, by decide +kernel, by decide, by decide, (nomatch ·)⟩) rfl).exact
    have : '\n' ∈ (L!"if a then b()\nend").take 10 := by
      rw [show (10 : Nat) = (Loc.mk 9 10).r from rfl, e]
      simp
    revert this
    decide

/-- It also excludes one on a line that is too long. -/
example : ¬ OnOneLine folding L!"if aaaaaaaaa then b() end" ⟨0, 25⟩ := by
  rintro ⟨_, m, h1, h2⟩
  rw [show folding.num .maxWidth = some 24 by decide +kernel] at h1
  cases h1
  revert h2
  decide

/-! ### C30 -/

/-- C30: with `write_newline_at_eof` the output ends with a newline, whatever the other options, the line range and the
source. -/
theorem C30_newline_at_eof (c : Config) (src out : Str) (hc : c.bool .writeNewlineAtEof = some true)
    (hf : format c src = .ok out) : ∃ s, out = s ++ ['\n'] := by
  unfold format at hf
  split at hf
  · cases hf
  · next tree ht =>
    obtain ⟨tag, span, locs, kids, rfl, hk⟩ := parseLua_chunk ht
    have hft : formatTree c src (.mk tag span locs kids) = .ok out := by
      split at hf <;> cases hf
      assumption
    simp only [formatTree, Res.bind_eq_ok] at hft
    obtain ⟨pr, _, h⟩ := hft
    exact chunk_last hk hc h

/-- Also without any text, behind a comment that goes to the end, and with a line range that ends before. -/
example : format (cfg [(L!"write_newline_at_eof", L!"true")]) L!"" = .ok L!"\n" ∧
    format (cfg [(L!"write_newline_at_eof", L!"true")]) L!"a = 1 -- x" = .ok L!"a = 1 -- x\n" ∧
    format { cfg [(L!"write_newline_at_eof", L!"true")] with lineRange := some (1, 1) } L!"a = 1\nb = 2" =
      .ok L!"a = 1\nb = 2\n" := by decide +kernel

/-- Without the option the end is left as it is. -/
example : format Config.default L!"a = 1" = .ok L!"a = 1" := by decide +kernel

end Luafmt
