import Verif.Props.CommentLines
import Verif.Proofs.KeptPairs

/-
C47, C48: line breaks of the source are kept, and none are added without options.
-/
namespace Luafmt
open Spec

/-- The text between the tokens `pre` and the next token `t`. -/
def Spec.textBefore (s : Str) (pre : List TokL) (t : TokL) : Str := (s.drop (behindTokens pre)).take (t.l - behindTokens pre)

/-- C47: if no option takes line breaks away, the source and the output have the same number of tokens, and between two tokens
(or before the first, or behind the last, where `t` is the end of the text) the output has at least as many line breaks as
the source. The one exception are single newlines if `remove_single_newlines` is set. -/
theorem C47_line_breaks_are_kept (c : Config) (src out : Str) (toks : List Token) (hh : BlankHints c) (hc : KeepsLines c)
    (hf : format c src = .ok out) (ht : toksOf src = some (toks ++ [.eof])) (hk : KeepsApart c toks)
    (srcToks outToks : List TokL) (hs : lexLua src = some srcToks) (ho : lexLua out = some outToks) :
    srcToks.length = outToks.length ∧
    ∀ pre t post pre' t' post', srcToks = pre ++ t :: post → outToks = pre' ++ t' :: post' → pre.length = pre'.length →
      breaks (textBefore src pre t) ≤ breaks (textBefore out pre' t') ∨ Lone c (textBefore src pre t) := by
  obtain ⟨ts, os, h1, h2, h3, h4⟩ := format_kept hh hc hf ht hk
  rw [hs] at h1
  rw [ho] at h2
  cases h1
  cases h2
  exact ⟨h3, fun pre t post pre' t' post' e1 e2 e3 => (h4 pre t post pre' t' post' e1 e2 e3).2.1 hc⟩

/-- C47: in particular empty lines are kept: between two tokens with two or more line breaks the output has at least as many,
also if `remove_single_newlines` is set. -/
theorem C47_empty_lines_are_kept (c : Config) (src out : Str) (toks : List Token) (hh : BlankHints c) (hc : KeepsLines c)
    (hf : format c src = .ok out) (ht : toksOf src = some (toks ++ [.eof])) (hk : KeepsApart c toks)
    (pre post pre' post' : List TokL) (t t' : TokL) (hs : lexLua src = some (pre ++ t :: post))
    (ho : lexLua out = some (pre' ++ t' :: post')) (hl : pre.length = pre'.length) (h2 : 2 ≤ breaks (textBefore src pre t)) :
    breaks (textBefore src pre t) ≤ breaks (textBefore out pre' t') := by
  refine ((C47_line_breaks_are_kept c src out toks hh hc hf ht hk _ _ hs ho).2 _ _ _ _ _ _ rfl rfl hl).resolve_right fun h => ?_
  have := h.2.2
  omega

/-- C48: if in addition no option writes line breaks, there are never more line breaks before a token of the output than
before the token of the source. The exceptions are the `}` right behind a `{` (an empty table with a comment or a newline
inside), and the end of the text if its last comment has no newline. -/
theorem C48_no_line_breaks_are_added (c : Config) (src out : Str) (toks : List Token) (hh : BlankHints c) (hc : SameLines c)
    (hf : format c src = .ok out) (ht : toksOf src = some (toks ++ [.eof])) (hk : KeepsApart c toks)
    (pre post pre' post' : List TokL) (t t' : TokL) (hs : lexLua src = some (pre ++ t :: post))
    (ho : lexLua out = some (pre' ++ t' :: post')) (hl : pre.length = pre'.length)
    (hg : t.tok ≠ .eof ∨ Gap (textBefore src pre t))
    (hb : ¬ ((out.take (behindTokens pre')).getLast? = some '{' ∧ t.tok = .closeCurly)) :
    breaks (textBefore out pre' t') ≤ breaks (textBefore src pre t) := by
  obtain ⟨ts, os, h1, h2, h3, h4⟩ := format_kept hh hc.toKeepsLines hf ht hk
  rw [hs] at h1
  rw [ho] at h2
  cases h1
  cases h2
  have := h4 _ _ _ _ _ _ rfl rfl hl
  exact (this.2.2 hc (hg.elim this.1 id)).resolve_left hb

/-- C48: unless `remove_single_newlines` is set, the number of line breaks before a token does not change at all. -/
theorem C48_lines_are_unchanged (c : Config) (src out : Str) (toks : List Token) (hh : BlankHints c) (hc : SameLines c)
    (hr : c.bool .removeSingleNewlines ≠ some true)
    (hf : format c src = .ok out) (ht : toksOf src = some (toks ++ [.eof])) (hk : KeepsApart c toks)
    (pre post pre' post' : List TokL) (t t' : TokL) (hs : lexLua src = some (pre ++ t :: post))
    (ho : lexLua out = some (pre' ++ t' :: post')) (hl : pre.length = pre'.length)
    (hg : t.tok ≠ .eof ∨ Gap (textBefore src pre t))
    (hb : ¬ ((out.take (behindTokens pre')).getLast? = some '{' ∧ t.tok = .closeCurly)) :
    breaks (textBefore out pre' t') = breaks (textBefore src pre t) := by
  have h1 := C48_no_line_breaks_are_added c src out toks hh hc hf ht hk _ _ _ _ _ _ hs ho hl hg hb
  have h2 := ((C47_line_breaks_are_kept c src out toks hh hc.toKeepsLines hf ht hk _ _ hs ho).2 _ _ _ _ _ _ rfl rfl hl).resolve_right
    fun h => hr h.1
  omega

/-! ### The hypotheses hold for concrete runs, and the limits of the claim -/

def airy : Config := cfg [(L!"remove_single_newlines", L!"true"), (L!"remove_spaces_between_tokens", L!"true"),
  (L!"replace_zero_spaces_with_hint", L!"true"), (L!"newline_format_statement", L!"1"), (L!"hint_before_comment", L!" ")]

def airySrc : Str := L!"local a =\n  1\n\n\nf(a,\n\n b) -- c\n\nreturn\n a"

def airyOut : Str := L!"local a = 1\n\n\nf(a,\n\nb) -- c\n\nreturn a"

def airyTokens : List TokL := [⟨0, .kwLocal, 5⟩, ⟨6, .variable L!"a", 7⟩, ⟨8, .equalsSign, 9⟩, ⟨12, .numeral L!"1", 13⟩,
  ⟨16, .variable L!"f", 17⟩, ⟨17, .openRound, 18⟩, ⟨18, .variable L!"a", 19⟩, ⟨19, .comma, 20⟩, ⟨23, .variable L!"b", 24⟩,
  ⟨24, .closeRound, 25⟩, ⟨32, .kwReturn, 38⟩, ⟨40, .variable L!"a", 41⟩, ⟨41, .eof, 41⟩]

def airyOutTokens : List TokL := [⟨0, .kwLocal, 5⟩, ⟨6, .variable L!"a", 7⟩, ⟨8, .equalsSign, 9⟩, ⟨10, .numeral L!"1", 11⟩,
  ⟨14, .variable L!"f", 15⟩, ⟨15, .openRound, 16⟩, ⟨16, .variable L!"a", 17⟩, ⟨17, .comma, 18⟩, ⟨20, .variable L!"b", 21⟩,
  ⟨21, .closeRound, 22⟩, ⟨29, .kwReturn, 35⟩, ⟨36, .variable L!"a", 37⟩, ⟨37, .eof, 37⟩]

/-- The hypotheses hold for a program with single newlines, empty lines and a comment, of which all spacing and the single
newlines are replaced: between the statements there are three line breaks, before `return` there is a comment and two. -/
example : format airy airySrc = .ok airyOut ∧ BlankHints airy ∧ KeepsLines airy ∧
    toksOf airySrc = some (body airySrc ++ [.eof]) ∧ KeepsApart airy (body airySrc) ∧ lexLua airySrc = some airyTokens ∧
    lexLua airyOut = some airyOutTokens ∧
    textBefore airySrc (airyTokens.take 4) ⟨16, .variable L!"f", 17⟩ = L!"\n\n\n" ∧
    textBefore airyOut (airyOutTokens.take 4) ⟨14, .variable L!"f", 15⟩ = L!"\n\n\n" ∧
    textBefore airySrc (airyTokens.take 10) ⟨32, .kwReturn, 38⟩ = L!" -- c\n\n" ∧
    textBefore airySrc (airyTokens.take 3) ⟨12, .numeral L!"1", 13⟩ = L!"\n  " ∧ Lone airy L!"\n  " := by
  refine ⟨by decide +kernel, by constructor <;> simp +decide [airy], ⟨rfl, by decide +kernel, by decide +kernel, by decide +kernel,
    by decide +kernel, by decide +kernel, by decide +kernel⟩, by decide +kernel,
    keepsApart_of (by decide +kernel) (.inr ⟨by decide +kernel, .inr ⟨L!" ", by decide +kernel, by decide⟩, by decide +kernel⟩),
    by decide +kernel, by decide +kernel, by decide +kernel, by decide +kernel, by decide +kernel, by decide +kernel,
    by decide +kernel, by decide +kernel, by decide +kernel⟩

/-- `remove_all_newlines` takes line breaks away. -/
theorem C47_fails_removing_newlines : format (cfg [(L!"remove_all_newlines", L!"true")]) L!"a = 1;\n\nb = 2" =
    .ok L!"a = 1;b = 2" := by decide +kernel

/-- `remove_comments` takes away the line breaks inside a long comment. -/
theorem C47_fails_removing_comments : format (cfg [(L!"remove_comments", L!"true")]) L!"a = 1 --[[\n\n]]\nb = 2" =
    .ok L!"a = 1 \nb = 2" := by decide +kernel

/-- A hint for the text of long comments takes away the line break before `]]`. -/
theorem C47_fails_trimming_comments : format (cfg [(L!"hint_after_multiline_comment_text", L!" ")])
    L!"a = 1 --[[c\n]]\nb = 2" = .ok L!"a = 1 --[[c ]]\nb = 2" := by decide +kernel

def still : Config := cfg [(L!"remove_spaces_between_tokens", L!"true"), (L!"replace_zero_spaces_with_hint", L!"true"),
  (L!"hint_before_comment", L!" "), (L!"hint_before_oneline_comment_text", L!" "), (L!"hint_table_constructor", L!" "),
  (L!"newline_format_function", L!"0"), (L!"newline_format_exp_list_first", L!"0")]

def stillSrc : Str := L!"local t={--x\n1,\n\n2}\nf(t)--[[y\n\nz]]\n\n\nreturn\nt --w\n"

def stillOut : Str := L!"local t =  { -- x\n1,\n\n2 }\nf(t) --[[y\n\nz]]\n\n\nreturn\nt -- w\n"

def stillTokens : List TokL := [⟨0, .kwLocal, 5⟩, ⟨6, .variable L!"t", 7⟩, ⟨7, .equalsSign, 8⟩, ⟨8, .openCurly, 9⟩,
  ⟨13, .numeral L!"1", 14⟩, ⟨14, .comma, 15⟩, ⟨17, .numeral L!"2", 18⟩, ⟨18, .closeCurly, 19⟩, ⟨20, .variable L!"f", 21⟩,
  ⟨21, .openRound, 22⟩, ⟨22, .variable L!"t", 23⟩, ⟨23, .closeRound, 24⟩, ⟨37, .kwReturn, 43⟩, ⟨44, .variable L!"t", 45⟩,
  ⟨50, .eof, 50⟩]

def stillOutTokens : List TokL := [⟨0, .kwLocal, 5⟩, ⟨6, .variable L!"t", 7⟩, ⟨8, .equalsSign, 9⟩, ⟨11, .openCurly, 12⟩,
  ⟨18, .numeral L!"1", 19⟩, ⟨19, .comma, 20⟩, ⟨22, .numeral L!"2", 23⟩, ⟨24, .closeCurly, 25⟩, ⟨26, .variable L!"f", 27⟩,
  ⟨27, .openRound, 28⟩, ⟨28, .variable L!"t", 29⟩, ⟨29, .closeRound, 30⟩, ⟨44, .kwReturn, 50⟩, ⟨51, .variable L!"t", 52⟩,
  ⟨58, .eof, 58⟩]

theorem sameLines_still : SameLines still := by
  refine ⟨⟨rfl, by decide +kernel, by decide +kernel, by decide +kernel, by decide +kernel, by decide +kernel, by decide +kernel⟩,
    asksNone_of fun o => by cases o <;> decide +kernel, by decide +kernel, by decide +kernel, by decide +kernel, ?_⟩
  simp +decide [still]

/-- The hypotheses of C48 hold for a program with comments and empty lines of which all spacing is replaced: before `return`
there are a long comment and five line breaks, before and after. -/
example : format still stillSrc = .ok stillOut ∧ BlankHints still ∧ SameLines still ∧
    still.bool .removeSingleNewlines ≠ some true ∧
    toksOf stillSrc = some (body stillSrc ++ [.eof]) ∧ KeepsApart still (body stillSrc) ∧
    lexLua stillSrc = some (stillTokens.take 12 ++ ⟨37, .kwReturn, 43⟩ :: stillTokens.drop 13) ∧
    lexLua stillOut = some (stillOutTokens.take 12 ++ ⟨44, .kwReturn, 50⟩ :: stillOutTokens.drop 13) ∧
    (stillTokens.take 12).length = (stillOutTokens.take 12).length ∧
    textBefore stillSrc (stillTokens.take 12) ⟨37, .kwReturn, 43⟩ = L!"--[[y\n\nz]]\n\n\n" ∧
    textBefore stillOut (stillOutTokens.take 12) ⟨44, .kwReturn, 50⟩ = L!" --[[y\n\nz]]\n\n\n" := by
  refine ⟨by decide +kernel, by constructor <;> simp +decide [still], sameLines_still, by decide +kernel, by decide +kernel,
    keepsApart_of (by decide +kernel) (.inr ⟨by decide +kernel, .inr ⟨L!" ", by decide +kernel, by decide⟩, by decide +kernel⟩),
    by decide +kernel, by decide +kernel, by decide +kernel, by decide +kernel, by decide +kernel⟩

/-- The first exception: in an empty table with a newline inside a comment, a line break is added before the `}`, without
any option. -/
theorem C48_fails_in_empty_tables : format .default L!"t = { --[[a\n]] }" = .ok L!"t = { --[[a\n]]\n}" := by decide +kernel

/-- `newline_format_statement` and the options for table fields and chains ask for line breaks with any value. -/
theorem C48_zero_asks_for_statements : format (cfg [(L!"newline_format_statement", L!"0")]) L!"a = 1 b = 2" =
    .ok L!"a = 1\nb = 2" := by decide +kernel

/-- The second exception: a line break is added behind a comment at the end of the text. -/
theorem C48_fails_behind_last_comment : format .default L!"t = 1 -- a" = .ok L!"t = 1 -- a\n" := by decide +kernel

end Luafmt
