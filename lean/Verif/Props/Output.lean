import Verif.Proofs.RangeElems

/-
C02, C04, C05, C33: the tokens, comments and newlines of the output.
-/
namespace Luafmt
open Spec

/-- A configuration given by option names and values. -/
def Spec.cfg (l : List (Str × Str)) : Config := l.foldl (fun c p => c.set p.1 p.2) Config.default

/-- Nothing is removed between tokens; strings, separators, comments and line breaks are rewritten. -/
def Spec.rewriting : Config :=
  cfg [(L!"convert_charstring_to_normalstring", L!"true"), (L!"field_separator", L!";"),
    (L!"write_trailing_field_separator", L!"true"), (L!"newline_format_statement", L!"1"),
    (L!"indentation_string", L!"  "), (L!"hint_before_oneline_comment_text", L!" ")]

/-- Everything between tokens is removed or replaced by hints. -/
def Spec.minifying : Config :=
  cfg [(L!"remove_spaces_between_tokens", L!"true"), (L!"replace_zero_spaces_with_hint", L!"true"),
    (L!"remove_comments", L!"true"), (L!"remove_all_newlines", L!"true"),
    (L!"write_trailing_field_separator", L!"false")]

def Spec.rewritingSrc : Str :=
  L!"#!lua\nlocal t = { 'a\"b', --one\n x = 0x1F, [ [[k]] ] = -1 } --[==[ two ]==] if t then return f(- --[[c]] 2, 'x') end --end"

def Spec.minifyingSrc : Str :=
  L!"#!lua\nlocal t = { 'a\"b', --one\n x = 0x1F, [ k ] = -1, } --[==[ two ]==] if t then return f(a - --[[c]] - 2, [[x\n]]) end --end"

theorem blankHints_rewriting : BlankHints rewriting := by
  constructor <;> simp +decide

theorem blankHints_minifying : BlankHints minifying := by
  constructor <;> simp +decide

/-! ### From elements to tokens -/

theorem beforeCurly_head {es : List Elem} (h : BeforeCurly es) : (tokensOf es).head? = some .closeCurly := by
  induction es with
  | nil => exact h.elim
  | cons e es ih =>
    cases e with
    | tok t => exact congrArg some (show t = .closeCurly from h)
    | _ => exact ih h

theorem commentRewrite_kind {c : Config} {e e' : Elem} (h : CommentRewrite c e e') :
    e.isComment = true ∧ e'.isComment = true := by
  cases e <;> cases e' <;> simp [CommentRewrite] at h <;> exact ⟨rfl, rfl⟩

theorem rewrites_tokens {c : Config} {es es' : List Elem} (h : Rewrites c es es') :
    TokensKept c (tokensOf es) (tokensOf es') := by
  induction h with
  | nil => exact .nil
  | tok h _ ih => exact .tok h ih
  | @comment e e' es es' _ h2 _ ih =>
    obtain ⟨h3, h4⟩ := commentRewrite_kind h2
    cases e with
    | tok => cases h3
    | _ => cases e' with
      | tok => cases h4
      | _ => exact ih
  | @noComment e _ _ _ h2 _ ih => cases e <;> first | exact ih | cases h2
  | @kept e _ _ _ h2 _ ih => cases e <;> first | exact ih | cases h2
  | dropSep h1 h2 h3 _ ih => exact .dropSep h1 (beforeCurly_head h2) h3 ih
  | addSep h1 h2 h3 h4 _ ih => exact .addSep h1 (beforeCurly_head h2) h3 h4 ih

theorem tokensKept_eq {c : Config} {ts ts' : List Token} (h : TokensKept c ts ts')
    (h1 : c.bool .convertCharstringToNormalstring ≠ some true) (h2 : c.str .fieldSeparator = none)
    (h3 : c.bool .writeTrailingFieldSeparator ≠ some false) (h4 : c.bool .forceSingleLineTable ≠ some true) :
    ts' = ts := by
  induction h with
  | nil => rfl
  | tok h _ ih =>
    rw [ih]
    rcases h with h | ⟨_, _, _, _, h, _⟩ | ⟨_, _, h⟩
    · rw [h]
    · exact absurd h h1
    · rw [h2] at h; cases h
  | dropSep _ _ h _ _ => rcases h with h | h; exact absurd h h3; exact absurd h h4
  | addSep _ _ _ h _ _ => rw [h2] at h; cases h

theorem commentRewrite_same {c : Config} (hr : c.lineRange ≠ none) {e : Elem} (h : e.isComment = true) :
    CommentRewrite c e e := by
  cases e with
  | tok => cases h
  | line => exact ⟨rfl, fun _ => rfl, fun h => absurd h hr⟩
  | long => exact ⟨rfl, rfl, fun _ _ => rfl, fun h => absurd h hr⟩

theorem rewrites_comments {c : Config} {es es' : List Elem} (h : Rewrites c es es')
    (hr : c.bool .removeComments ≠ some true) : Each (CommentRewrite c) (commentsOf es) (commentsOf es') := by
  induction h with
  | nil => exact .nil
  | tok _ _ ih => exact ih
  | @comment e e' es es' _ h2 _ ih =>
    obtain ⟨h3, h4⟩ := commentRewrite_kind h2
    simp only [commentsOf, List.filter_cons, h3, h4, if_true]
    exact .cons h2 ih
  | noComment h1 => exact absurd h1 hr
  | @kept e _ _ h1 h2 _ ih =>
    simp only [commentsOf, List.filter_cons, h2, if_true]
    exact .cons (commentRewrite_same h1 h2) ih
  | dropSep _ _ _ _ ih => exact ih
  | addSep _ _ _ _ _ ih => exact ih

theorem rewrites_noComments {c : Config} {es es' : List Elem} (h : Rewrites c es es')
    (hr : c.bool .removeComments = some true) (hl : c.lineRange = none) : es' = (tokensOf es').map .tok := by
  induction h with
  | nil => rfl
  | tok _ _ ih => simp only [tokensOf, List.map_cons, ← ih]
  | comment h1 => exact absurd hr h1
  | noComment _ _ _ ih => exact ih
  | kept h1 => exact absurd hl h1
  | dropSep _ _ _ _ ih => exact ih
  | addSep _ _ _ _ _ ih => simp only [tokensOf, List.map_cons, ← ih]

/-- Comments that are removed or left as they are. -/
theorem rewrites_fewer {c : Config} {es es' : List Elem} (h : Rewrites c es es') (hr : c.bool .removeComments = some true) :
    (commentsOf es').Sublist (commentsOf es) := by
  induction h with
  | nil => exact .slnil
  | tok _ _ ih => exact ih
  | comment h1 => exact absurd hr h1
  | @noComment e _ _ _ h2 _ ih =>
    simp only [commentsOf, List.filter_cons, h2, if_true]
    exact ih.cons _
  | @kept e _ _ _ h2 _ ih =>
    simp only [commentsOf, List.filter_cons, h2, if_true]
    exact ih.cons_cons _
  | dropSep _ _ _ _ ih => exact ih
  | addSep _ _ _ _ _ ih => exact ih

/-- A check that implies `CommentsEnd`. -/
def commentsEndB : Str → Bool
  | '-' :: '-' :: t => t.contains '\n' && commentsEndB ('-' :: t)
  | _ :: t => commentsEndB t
  | [] => true

theorem commentsEnd_of : ∀ {s : Str}, commentsEndB s = true → CommentsEnd s
  | s, h, [], t, e => by
    subst e
    simp only [List.nil_append, commentsEndB, Bool.and_eq_true, List.contains_eq_mem, decide_eq_true_eq] at h
    exact h.1
  | s, h, x :: d, t, e => by
    subst e
    have : commentsEndB (d ++ '-' :: '-' :: t) = true := by
      rw [List.cons_append] at h
      unfold commentsEndB at h
      split at h
      · next heq =>
        rw [(List.cons.inj heq).2]
        exact (Bool.and_eq_true_iff.mp h).2
      · next heq =>
        rw [(List.cons.inj heq).2]
        exact h
      · next heq => cases heq
    exact commentsEnd_of this d t rfl

/-- A text whose last line is complete does not end in a one-line comment. -/
theorem commentsEnd_of_newline {s : Str} (h : s.getLast? = some '\n') : CommentsEnd s := by
  rintro d t rfl
  have h1 := List.mem_of_getLast? (l := '-' :: '-' :: t) (a := '\n') (by
    rw [← h, List.getLast?_append]
    cases h2 : ('-' :: '-' :: t).getLast? with
    | none => simp at h2
    | some y => rfl)
  simp only [List.mem_cons] at h1
  rcases h1 with h1 | h1 | h1
  · cases h1
  · cases h1
  · exact h1

/-- A check that implies `RangeSafe`. -/
def rangeSafeB (c : Config) (src : Str) : Bool :=
  src.all (fun ch => ch.utf8Size == 1) && commentsEndB src &&
    match parseLua src with
    | none => true
    | some tree => match effectiveRange c src tree with
      | .ok (some (l, r)) => (nodesOf tree).all fun n => n.tag != .varRoundSuffix || decide (Uncut l r n.span)
      | _ => true

theorem rangeSafe_of {c : Config} {src : Str} (h : rangeSafeB c src = true) : RangeSafe c src := by
  simp only [rangeSafeB, Bool.and_eq_true, List.all_eq_true, beq_iff_eq, decide_eq_true_eq] at h
  obtain ⟨⟨h1, h2⟩, h3⟩ := h
  refine .inr ⟨h1, commentsEnd_of h2, fun tree l r hp he n hn ht => ?_⟩
  simp only [hp, he, List.all_eq_true, Bool.or_eq_true, decide_eq_true_eq, ht, bne_self_eq_false, Bool.false_eq_true, false_or] at h3
  have := h3 n hn
  rw [ht] at this
  simpa using this

/-! ### C02 -/

/-- C02 where the tokens stay apart: the output is accepted by the lexer and its tokens are those of the source in
the same order, up to the rewrites the options ask for. Missing from the full claim: configurations that remove
blanks, newlines or comments without putting a hint in their place, long strings behind `[`, and unfinished
numerals; and runs with a line range over sources that have characters beyond ASCII, that end in a
one-line comment without a newline, or where the region ends inside a call behind parentheses. The theorems below show
that the claim fails for each of them except for sources that end in a comment, which are not settled (for those C04
fails). -/
theorem C02_tokens_kept_partial (c : Config) (src out : Str) (toks : List Token) (hh : BlankHints c)
    (hs : RangeSafe c src) (hf : format c src = .ok out) (ht : toksOf src = some (toks ++ [.eof]))
    (hk : KeepsApart c toks) :
    ∃ toks', toksOf out = some (toks' ++ [.eof]) ∧ TokensKept c toks toks' := by
  obtain ⟨_, ts, e, os, es, es', _, h1, h2, _, hos, h3, _, h5, _, h7⟩ := format_elems hh hs hf
  have : toks = tokensOf es := by
    rw [toksOf, h1] at ht
    simp [h2, h3] at ht
    exact ht.symm
  subst this
  exact ⟨tokensOf es', (h7 hk).toksOf, rewrites_tokens h5⟩

/-- C02: without the options that rewrite tokens the output has exactly the tokens of the source. -/
theorem C02_tokens_identical_partial (c : Config) (src out : Str) (toks : List Token) (hh : BlankHints c)
    (hs : RangeSafe c src) (hf : format c src = .ok out) (ht : toksOf src = some (toks ++ [.eof]))
    (hk : KeepsApart c toks) (h1 : c.bool .convertCharstringToNormalstring ≠ some true)
    (h2 : c.str .fieldSeparator = none) (h3 : c.bool .writeTrailingFieldSeparator ≠ some false)
    (h4 : c.bool .forceSingleLineTable ≠ some true) : toksOf out = toksOf src := by
  obtain ⟨toks', h, hr⟩ := C02_tokens_kept_partial c src out toks hh hs hf ht hk
  rw [h, ht, tokensKept_eq hr h1 h2 h3 h4]

/-- The tokens of a text without the end-of-text token. -/
def Spec.body (s : Str) : List Token := ((toksOf s).getD []).dropLast

instance (s : Str) : Decidable (UnfinishedNumeral s) := inferInstanceAs (Decidable (_ ∨ _))
instance (c : Config) : Decidable (Shrinks c) := inferInstanceAs (Decidable (_ ∨ _))

def numeralOkB : Token → Bool
  | .numeral s => decide (¬ UnfinishedNumeral s)
  | _ => true

def noSqB : List Token → Bool
  | .openSquare :: .multiLineString _ _ :: _ => false
  | _ :: ts => noSqB ts
  | [] => true

theorem noSqB_spec {ts : List Token} (h : noSqB ts = true) (n : Nat) (s : Str) :
    ¬ [Token.openSquare, .multiLineString n s] <:+: ts := by
  induction ts with
  | nil => rintro ⟨a, b, h⟩; simp at h
  | cons t ts ih =>
    rw [List.infix_cons_iff]
    rintro (hp | hi)
    · obtain ⟨r, hr⟩ := hp
      cases hr
      cases h
    · refine ih ?_ hi
      unfold noSqB at h
      split at h
      · cases h
      · next heq => cases heq; exact h
      · next heq => cases heq

/-- A check that implies `KeepsApart`. -/
theorem keepsApart_of {c : Config} {toks : List Token} (hn : toks.all numeralOkB = true)
    (h : decide (¬ Shrinks c) = true ∨ c.bool .replaceZeroSpacesWithHint = some true ∧ HintedComments c ∧ noSqB toks = true) :
    KeepsApart c toks := by
  refine ⟨?_, fun s hs => ?_⟩
  · rcases h with h | ⟨h1, h2, h3⟩
    · exact .inl (of_decide_eq_true h)
    · exact .inr ⟨h1, h2, noSqB_spec h3⟩
  · have := List.all_eq_true.mp hn _ hs
    exact of_decide_eq_true this

/-- The hypotheses of `C02_tokens_kept_partial` hold for a program with comments, strings and tables. -/
example : ∃ out, format rewriting rewritingSrc = .ok out ∧ rewriting.lineRange = none ∧ BlankHints rewriting ∧
    toksOf rewritingSrc = some (body rewritingSrc ++ [.eof]) ∧ KeepsApart rewriting (body rewritingSrc) := by
  refine ⟨L!"#!lua\nlocal t = { \"a\\\"b\"; -- one\n x = 0x1F; [ [[k]] ] = -1; } --[==[ two ]==]\nif t then return f(- --[[c]] 2, \"x\") end -- end\n",
    by decide +kernel, rfl, blankHints_rewriting, by decide +kernel, ?_⟩
  exact keepsApart_of (by decide +kernel) (.inl (by decide +kernel))

example : ∃ out, format minifying minifyingSrc = .ok out ∧ minifying.lineRange = none ∧ BlankHints minifying ∧
    toksOf minifyingSrc = some (body minifyingSrc ++ [.eof]) ∧ KeepsApart minifying (body minifyingSrc) := by
  refine ⟨L!"#!lua\nlocal t = {'a\"b', x = 0x1F, [k] = -1} if t then return f(a - -2, [[x\n]]) end",
    by decide +kernel, rfl, blankHints_minifying, by decide +kernel, ?_⟩
  exact keepsApart_of (by decide +kernel) (.inr ⟨by decide +kernel, .inl ⟨by decide +kernel, rfl⟩, by decide +kernel⟩)

/-- A source of which a part is formatted. -/
def Spec.partSrc : Str :=
  L!"local t = { 'a', --one\n 2 ,\n 3 }  --two\nf ( - --[[c]] t , 'x'  ) --three\ng ( 'y' ,  (h)(1) )\n"

/-- The hypotheses hold for runs with a line range: line 4 of the source is rewritten, -/
example : ∃ c, c = { rewriting with lineRange := some (4, 4) } ∧ BlankHints c ∧ RangeSafe c partSrc ∧
    format c partSrc = .ok L!"local t = { 'a', --one\n 2 ,\n 3 }  -- two\nf ( - --[[c]] t , \"x\"  ) -- three\ng ( 'y' ,  (h)(1) )\n" ∧
    toksOf partSrc = some (body partSrc ++ [.eof]) ∧ KeepsApart c (body partSrc) :=
  ⟨_, rfl, by constructor <;> simp +decide, rangeSafe_of (by decide +kernel), by decide +kernel, by decide +kernel,
    keepsApart_of (by decide +kernel) (.inl (by decide +kernel))⟩

/-- and here the lines 1 and 2, which grow to the first statement. -/
example : ∃ c, c = { minifying.set L!"hint_before_comment" L!" " with lineRange := some (1, 2) } ∧ BlankHints c ∧ RangeSafe c partSrc ∧
    format c partSrc = .ok L!"local t = {'a', 2, 3}  --two\nf ( - --[[c]] t , 'x'  ) --three\ng ( 'y' ,  (h)(1) )\n" ∧
    toksOf partSrc = some (body partSrc ++ [.eof]) ∧ KeepsApart c (body partSrc) :=
  ⟨_, rfl, by constructor <;> simp +decide, rangeSafe_of (by decide +kernel), by decide +kernel, by decide +kernel,
    keepsApart_of (by decide +kernel) (.inr ⟨by decide +kernel, .inr ⟨L!" ", by decide +kernel, by decide⟩, by decide +kernel⟩)⟩

/-- C02 fails if the region ends inside a call behind parentheses, even without any option: the arguments of the call
are lost. -/
theorem C02_fails_for_cut_call : format { Config.default with lineRange := some (1, 1) } L!"return (f)(x,\n y)\n" =
    .ok L!"return (f)\n" := by decide +kernel

/-- C02 fails for a line range in a source with a character beyond ASCII, even without any option: the gap between two
comments is looked up at the wrong place, and the output is not even accepted. -/
theorem C02_fails_for_ranges_beyond_ascii : ∃ out,
    format { Config.default with lineRange := some (2, 2) } L!"abcdefghi()\na() --[[é]] --[[y]] b()\n" = .ok out ∧
    parseLua L!"abcdefghi()\na() --[[é]] --[[y]] b()\n" ≠ none ∧ parseLua out = none :=
  ⟨L!"abcdefghi()\na() --[[é]]]--[[y]] b()\n", by decide +kernel, by decide +kernel, by decide +kernel⟩

/-- Blanks removed without hints. -/
def Spec.squeezing : Config := cfg [(L!"remove_spaces_between_tokens", L!"true"), (L!"remove_comments", L!"true")]

/-- The same with hints. -/
def Spec.hinting : Config :=
  cfg [(L!"remove_spaces_between_tokens", L!"true"), (L!"replace_zero_spaces_with_hint", L!"true"),
    (L!"remove_comments", L!"true")]

/-- The full claim C02 fails if blanks are removed without hints: `local a` becomes the single name `locala`. -/
theorem C02_fails_without_hints : ¬ ∀ (c : Config) (src out : Str) (toks : List Token), BlankHints c → c.lineRange = none →
    format c src = .ok out → toksOf src = some (toks ++ [.eof]) →
    ∃ toks', toksOf out = some (toks' ++ [.eof]) ∧ TokensKept c toks toks' := by
  intro h
  obtain ⟨toks', h1, h2⟩ := h squeezing L!"local a" L!"locala" [.kwLocal, .variable L!"a"] (by constructor <;> simp +decide) rfl
    (by decide +kernel) (by decide +kernel)
  rw [show toksOf L!"locala" = some ([.variable L!"locala"] ++ [.eof]) by decide +kernel] at h1
  obtain rfl : [.variable L!"locala"] = toks' := List.append_cancel_right (Option.some.inj h1)
  cases h2 with
  | tok h1 h2 =>
    cases h2 with
    | dropSep h => rcases h with h | h <;> cases h
  | dropSep h => rcases h with h | h <;> cases h
  | addSep h => rcases h with h | h <;> cases h

/-- It fails for a long string behind `[` although hints are written: the output is not even accepted. -/
theorem C02_fails_for_long_string_index : ∃ out, format hinting L!"t [ [[a]] ] = 1" = .ok out ∧
    BlankHints hinting ∧ hinting.lineRange = none ∧ parseLua L!"t [ [[a]] ] = 1" ≠ none ∧ parseLua out = none :=
  ⟨L!"t[[[a]]] = 1", by decide +kernel, by constructor <;> simp +decide, rfl, by decide +kernel, by decide +kernel⟩

/-- It fails for an unfinished numeral at the end of the text. -/
theorem C02_fails_for_unfinished_numeral : ∃ out, format hinting L!"t= 1e " = .ok out ∧
    BlankHints hinting ∧ hinting.lineRange = none ∧ (toksOf L!"t= 1e ").isSome ∧ toksOf out = none :=
  ⟨L!"t = 1e", by decide +kernel, by constructor <;> simp +decide, rfl, by decide +kernel, by decide +kernel⟩

/-- It fails if comments are kept without a hint before them: the operator and the comment are joined. -/
theorem C02_fails_for_joined_comment : ∃ c out, c = cfg [(L!"remove_spaces_between_tokens", L!"true"),
      (L!"replace_zero_spaces_with_hint", L!"true")] ∧ format c L!"a = b - --[[c]] d" = .ok out ∧ BlankHints c ∧
    c.lineRange = none ∧ toksOf L!"a = b - --[[c]] d" =
      some [.variable L!"a", .equalsSign, .variable L!"b", .minus, .variable L!"d", .eof] ∧
    toksOf out = some [.variable L!"a", .equalsSign, .variable L!"b", .eof] :=
  ⟨_, L!"a = b ---[[c]]d", rfl, by decide +kernel, by constructor <;> simp +decide, rfl, by decide +kernel, by decide +kernel⟩

/-! ### C04 -/

/-- C04 for every source that does not end in an unfinished bracket behind two dashes: the source and the output
are sequences of tokens and comments (with blanks between them), the tokens of the source being those the lexer reads
at the places where it reads them, and so for the output where the tokens stay apart; the output has the same sequence
up to the rewrites of `Spec.Rewrites`, so every comment keeps its place; and the comments correspond one by one. Missing from the full claim: sources that end in `--[` or `--[==`, whose last comment loses
its text (below), and empty hints inside comments (excluded by `BlankHints`; below). -/
theorem C04_comments_survive_partial (c : Config) (src out : Str) (hh : BlankHints c) (hs : RangeSafe c src)
    (hf : format c src = .ok out) (hr : c.bool .removeComments ≠ some true) (hc : Clean src) :
    ∃ es es', ElementsOf src es ∧ Text es' out ∧ Rewrites c es es' ∧
      Each (CommentRewrite c) (commentsOf es) (commentsOf es') ∧ (KeepsApart c (tokensOf es) → ElementsOf out es') := by
  obtain ⟨_, ts, e, os, es, es', _, h1, h2, _, hos, h3, h4, h5, h6, h7⟩ := format_elems hh hs hf
  exact ⟨es, es', h4 hc, h6, h5, rewrites_comments h5 hr, fun hk => (h7 hk).lexed 0⟩

theorem clean_of {s : Str} {x : Char} (h : s.getLast? = some x) (h1 : x ≠ '[') (h2 : x ≠ '=') : Clean s := by
  rintro ⟨n, r, hr⟩
  rw [← hr] at h
  cases n with
  | zero => simp [eqs] at h; exact h1 h.symm
  | succ n =>
    have : (r ++ '-' :: '-' :: '[' :: eqs (n + 1)) = (r ++ '-' :: '-' :: '[' :: eqs n) ++ ['='] := by
      simp [eqs, List.replicate_succ']
    rw [this, List.getLast?_append] at h
    exact h2 (Option.some.inj h).symm

/-- The hypotheses hold for a program with comments of all kinds. -/
example : ∃ out, format rewriting rewritingSrc = .ok out ∧ rewriting.lineRange = none ∧ BlankHints rewriting ∧
    rewriting.bool .removeComments ≠ some true ∧ Clean rewritingSrc :=
  ⟨L!"#!lua\nlocal t = { \"a\\\"b\"; -- one\n x = 0x1F; [ [[k]] ] = -1; } --[==[ two ]==]\nif t then return f(- --[[c]] 2, \"x\") end -- end\n",
    by decide +kernel, rfl, blankHints_rewriting, by decide +kernel,
    clean_of (x := 'd') (by decide +kernel) (by decide) (by decide)⟩

/-- They hold for a run with a line range. -/
example : ∃ c, c = { rewriting with lineRange := some (4, 4) } ∧ BlankHints c ∧ RangeSafe c partSrc ∧
    (∃ out, format c partSrc = .ok out) ∧ c.bool .removeComments ≠ some true ∧ Clean partSrc :=
  ⟨_, rfl, by constructor <;> simp +decide, rangeSafe_of (by decide +kernel),
    ⟨L!"local t = { 'a', --one\n 2 ,\n 3 }  -- two\nf ( - --[[c]] t , \"x\"  ) -- three\ng ( 'y' ,  (h)(1) )\n", by decide +kernel⟩,
    by decide +kernel, clean_of (x := '\n') (by decide +kernel) (by decide) (by decide)⟩

/-- The comment `--[==` at the end of a source loses its text, even without any option. -/
theorem C04_fails_at_end_of_text : format Config.default L!"a = 1 --[==" = .ok L!"a = 1 --\n" := by decide +kernel

/-- With a line range, a comment at the end of the source that is not followed by a newline may get a blank at its end:
the code takes it for a long comment because it ends in `]`. -/
theorem C04_fails_for_open_comment : ∃ c, c = { cfg [(L!"hint_after_multiline_comment", L!" ")] with lineRange := some (1, 2) } ∧
    format c L!"a = 1\n\n--x]" = .ok L!"a = 1\n\n--x] " ∧ Clean L!"a = 1\n\n--x]" :=
  ⟨_, rfl, by decide +kernel, clean_of (x := ']') (by decide +kernel) (by decide) (by decide)⟩

/-- With an empty hint a one-line comment turns into the start of a long comment, which swallows the program. -/
theorem C04_fails_for_empty_hint : ∃ c out, c = cfg [(L!"hint_before_oneline_comment_text", L!"")] ∧
    format c L!"-- [[ x\na=1" = .ok out ∧ (toksOf L!"-- [[ x\na=1").isSome ∧ toksOf out = none :=
  ⟨_, L!"--[[ x\na=1", rfl, by decide +kernel, by decide +kernel, by decide +kernel⟩

/-! ### C05 -/

/-- C05: with `remove_comments` the output consists of the tokens of the source in order (up to the rewrites the
options ask for) and blanks; where the tokens stay apart the lexer reads it like this. Missing from the full claim:
if blanks are removed without hints the written tokens may be read differently (below). -/
theorem C05_only_comments_removed_partial (c : Config) (src out : Str) (toks : List Token) (hh : BlankHints c)
    (hl : c.lineRange = none) (hf : format c src = .ok out) (ht : toksOf src = some (toks ++ [.eof]))
    (hr : c.bool .removeComments = some true) :
    ∃ toks', TokensKept c toks toks' ∧ Text (toks'.map .tok) out ∧
      (KeepsApart c toks → toksOf out = some (toks' ++ [.eof])) := by
  obtain ⟨_, ts, e, os, es, es', _, h1, h2, _, hos, h3, _, h5, h6, h7⟩ := format_elems hh (.inl hl) hf
  have : toks = tokensOf es := by
    rw [toksOf, h1] at ht
    simp [h2, h3] at ht
    exact ht.symm
  subst this
  refine ⟨tokensOf es', rewrites_tokens h5, ?_, fun hk => (h7 hk).toksOf⟩
  rw [← rewrites_noComments h5 hr hl]
  exact h6

example : ∃ out, format minifying minifyingSrc = .ok out ∧ minifying.lineRange = none ∧ BlankHints minifying ∧
    toksOf minifyingSrc = some (body minifyingSrc ++ [.eof]) ∧ minifying.bool .removeComments = some true :=
  ⟨L!"#!lua\nlocal t = {'a\"b', x = 0x1F, [k] = -1} if t then return f(a - -2, [[x\n]]) end",
    by decide +kernel, rfl, blankHints_minifying, by decide +kernel, by decide +kernel⟩

/-- C05 for runs with a line range: the tokens stay, and the comments of the output are some of those of the source,
unchanged and in order. -/
theorem C05_range_partial (c : Config) (src out : Str) (hh : BlankHints c) (hs : RangeSafe c src)
    (hf : format c src = .ok out) (hr : c.bool .removeComments = some true) (hc : Clean src) :
    ∃ es es', ElementsOf src es ∧ Text es' out ∧ TokensKept c (tokensOf es) (tokensOf es') ∧
      (commentsOf es').Sublist (commentsOf es) ∧ (KeepsApart c (tokensOf es) → ElementsOf out es') := by
  obtain ⟨_, ts, e, os, es, es', _, h1, h2, _, hos, h3, h4, h5, h6, h7⟩ := format_elems hh hs hf
  exact ⟨es, es', h4 hc, h6, rewrites_tokens h5, rewrites_fewer h5 hr, fun hk => (h7 hk).lexed 0⟩

/-- The hypotheses hold for a run that removes the first comment only. -/
example : ∃ c, c = { minifying.set L!"hint_before_comment" L!" " with lineRange := some (1, 2) } ∧ BlankHints c ∧ RangeSafe c partSrc ∧
    format c partSrc = .ok L!"local t = {'a', 2, 3}  --two\nf ( - --[[c]] t , 'x'  ) --three\ng ( 'y' ,  (h)(1) )\n" ∧
    c.bool .removeComments = some true ∧ Clean partSrc :=
  ⟨_, rfl, by constructor <;> simp +decide, rangeSafe_of (by decide +kernel), by decide +kernel, by decide +kernel,
    clean_of (x := '\n') (by decide +kernel) (by decide) (by decide)⟩

/-- Two operators are joined to a comment. -/
theorem C05_fails_without_hints : format squeezing L!"a = b - -c" = .ok L!"a=b--c" ∧ BlankHints squeezing ∧
    toksOf L!"a=b--c" = some [.variable L!"a", .equalsSign, .variable L!"b", .eof] :=
  ⟨by decide +kernel, by constructor <;> simp +decide, by decide +kernel⟩

/-! ### C33 -/

/-- The options of C33: newlines and comments are removed and nothing that may write a newline is set. -/
structure Spec.NoNewlines (c : Config) : Prop where
  all : c.bool .removeAllNewlines = some true
  com : c.bool .removeComments = some true
  num : ∀ o n, c.num o = some n → ¬ asksLines o n
  eof : c.bool .writeNewlineAtEof ≠ some true
  table : c.bool .writeNewlineAtMultilineTable ≠ some true
  args : c.bool .writeNewlineAtExplistMultilineTable ≠ some true
  hint : ∀ o ∈ hintOptions, ∀ s, c.str o = some s → '\n' ∉ s

/-- C33 without `max_width`: the output has exactly the newlines that are inside tokens of the source (long
strings, strings with an escaped line break, the shebang line). Missing from the full claim: `max_width`, with which
a newline may be written before a `}` (below). -/
theorem C33_no_newlines_partial (c : Config) (src out : Str) (toks : List Token) (hh : BlankHints c)
    (hl : c.lineRange = none) (hf : format c src = .ok out) (ht : toksOf src = some (toks ++ [.eof]))
    (hn : NoNewlines c) : out.count '\n' = (toks.map fun t => (spell t).count '\n').sum := by
  have hopt : ¬ NlOpt c := by
    rintro (⟨o, n, h, ha⟩ | h | h | h)
    · exact hn.num o n h ha
    · exact hn.eof h
    · exact hn.table h
    · exact hn.args h
  obtain ⟨_, ts, e, _, _, h1, h2, _, h3⟩ := format_render (NL := False) hh ⟨hopt, fun h => h hn.all, fun h => h hn.com,
    fun o ho s hs hi => hn.hint o ho s hs hi⟩ hl hf
  have := h3.newlines hh id
  rw [toksOf, h1] at ht
  simp [h2] at ht
  rw [this, ← ht]
  simp [h2, spell, Function.comp_def]

/-- In particular: no newlines at all if no token of the source contains one. -/
theorem C33_single_line_partial (c : Config) (src out : Str) (toks : List Token) (hh : BlankHints c)
    (hl : c.lineRange = none) (hf : format c src = .ok out) (ht : toksOf src = some (toks ++ [.eof]))
    (hn : NoNewlines c) (hs : ∀ t ∈ toks, '\n' ∉ spell t) : '\n' ∉ out := by
  have := C33_no_newlines_partial c src out toks hh hl hf ht hn
  have hz : (toks.map fun t => (spell t).count '\n').sum = 0 := by
    clear ht this
    induction toks with
    | nil => rfl
    | cons t ts ih =>
      simp only [List.map_cons, List.sum_cons, List.count_eq_zero.mpr (hs t (by simp)),
        ih fun t h => hs t (by simp [h])]
  rw [hz] at this
  exact List.count_eq_zero.mp this

/-- A check of the hypothesis that no option asks for line breaks. -/
theorem asksNone_of {c : Config} (h : ∀ o, (match c.num o with | some n => !asksLines o n | none => true) = true) :
    ∀ o n, c.num o = some n → ¬ asksLines o n := by
  intro o n hn ha
  have := h o
  rw [hn] at this
  simp only [ha] at this
  cases this

theorem noNewlines_minifying : NoNewlines minifying := by
  constructor
  case num => exact asksNone_of fun o => by cases o <;> decide +kernel
  all_goals first | decide +kernel | simp +decide | (intro o; cases o <;> decide +kernel)

example : ∃ out, format minifying minifyingSrc = .ok out ∧ minifying.lineRange = none ∧ BlankHints minifying ∧
    toksOf minifyingSrc = some (body minifyingSrc ++ [.eof]) ∧ NoNewlines minifying :=
  ⟨L!"#!lua\nlocal t = {'a\"b', x = 0x1F, [k] = -1} if t then return f(a - -2, [[x\n]]) end",
    by decide +kernel, rfl, blankHints_minifying, by decide +kernel, noNewlines_minifying⟩

/-- With the value 0 most options do not ask for line breaks. -/
example : ∃ c, c = (minifying.set L!"newline_format_if" L!"0").set L!"newline_format_exp_list" L!"0" ∧ NoNewlines c ∧
    format c L!"if a then\nf(b,\nc)\nelseif d then e() end\n" = .ok L!"if a then f(b, c) elseif d then e() end" := by
  refine ⟨_, rfl, ?_, by decide +kernel⟩
  constructor
  case num => exact asksNone_of fun o => by cases o <;> decide +kernel
  all_goals first | decide +kernel | simp +decide | (intro o; cases o <;> decide +kernel)

/-- A source of several lines without newlines in its tokens. -/
example : format minifying L!"local t = {\n1, -- one\n2 }\nf()" = .ok L!"local t = {1, 2} f()" ∧
    (∀ t ∈ body L!"local t = {\n1, -- one\n2 }\nf()", '\n' ∉ spell t) := by decide +kernel

/-- With `max_width` a newline is written although all newlines are removed. -/
theorem C33_fails_with_max_width : format (cfg [(L!"remove_all_newlines", L!"true"), (L!"remove_comments", L!"true"),
    (L!"max_width", L!"5")]) L!"t = {1, 2}" = .ok L!"t = {1, 2\n}" := by decide +kernel

end Luafmt
