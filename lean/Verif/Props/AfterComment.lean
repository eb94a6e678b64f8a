import Verif.Props.CommentLines

/-
C49: what stands behind a long comment, up to the next token on its line.
-/
namespace Luafmt
open Spec

/-- C49: the text between the tokens `pre` and the next token `t` of the output ends, where its last comment is a long one on
the line of `t`, with `hint_after_multiline_comment`; before `{` or `}` the hint of tables may follow. -/
theorem C49_behind_a_long_comment (c : Config) (src out : Str) (toks : List Token) (hh : BlankHints c) (hc : Regular c)
    (hf : format c src = .ok out) (ht : toksOf src = some (toks ++ [.eof])) (hk : KeepsApart c toks)
    (pre post : List TokL) (t : TokL) (hlex : lexLua out = some (pre ++ t :: post)) :
    AfterLong c t.tok ((out.drop (behindTokens pre)).take (t.l - behindTokens pre)) := by
  obtain ⟨tree', os, _, h1, h2, h3⟩ := format_spaced hh hc.range hf ht hk
  rw [hlex] at h1
  have h1 := Option.some.inj h1
  refine After.long (h3.behind id hc (D := []) rfl h1.symm rfl rfl) ?_
  have : t ∈ os ++ [⟨out.length, .eof, out.length⟩] := by rw [← h1]; simp
  rcases List.mem_append.mp this with h | h
  · exact .inr (h2 t h)
  · rw [List.mem_singleton.mp h]
    exact .inl rfl

/-- C49: a token other than a brace that follows a long comment on the same line stands behind exactly
`hint_after_multiline_comment`: no blank of the source is left there, and the hint of the token itself is not added. -/
theorem C49_hint_after_a_long_comment (c : Config) (src out : Str) (toks : List Token) (hh : BlankHints c) (hc : Regular c)
    (hf : format c src = .ok out) (ht : toksOf src = some (toks ++ [.eof])) (hk : KeepsApart c toks)
    (pre post : List TokL) (t : TokL) (hlex : lexLua out = some (pre ++ t :: post)) (h1 : t.tok ≠ .openCurly) (h2 : t.tok ≠ .closeCurly)
    (a b : Str) (hK : (out.drop (behindTokens pre)).take (t.l - behindTokens pre) = a ++ ']' :: b) (hb : ']' ∉ b) (hn : '\n' ∉ b) :
    b = afterComment c := by
  rcases C49_behind_a_long_comment c src out toks hh hc hf ht hk pre post t hlex a b hK hb hn with h | ⟨h | h, _⟩
  · exact h
  · exact absurd h h1
  · exact absurd h h2

/-! ### The hypotheses hold for concrete runs, and the limits of the claim -/

def hinted : Config := cfg [(L!"remove_spaces_between_tokens", L!"true"), (L!"replace_zero_spaces_with_hint", L!"true"),
  (L!"hint_before_comment", L!" "), (L!"hint_after_multiline_comment", L!" "), (L!"hint_table_constructor", L!"  "),
  (L!"write_trailing_field_separator", L!"false")]

def hintedSrc : Str := L!"f--[[u]]  --[[v]]   (a)\nt=--[[y]]{--[==[z]==]2--[[w]],}\nreturn--[[e]]"

def hintedOut : Str := L!"f --[[u]] --[[v]] (a)\nt = --[[y]]   { --[==[z]==] 2 --[[w]]   }\nreturn --[[e]] "

def hintedTokens : List TokL := [⟨0, .variable L!"f", 1⟩, ⟨18, .openRound, 19⟩, ⟨19, .variable L!"a", 20⟩, ⟨20, .closeRound, 21⟩,
  ⟨22, .variable L!"t", 23⟩, ⟨24, .equalsSign, 25⟩, ⟨36, .openCurly, 37⟩, ⟨50, .numeral L!"2", 51⟩, ⟨62, .closeCurly, 63⟩,
  ⟨64, .kwReturn, 70⟩, ⟨79, .eof, 79⟩]

/-- The hypotheses hold for a program with long comments before five tokens. Behind the second comment before `(` there is
the hint only, as at the end of the program; before `{` and before `}` (where a separator was dropped) the hint of tables
follows it. -/
example : format hinted hintedSrc = .ok hintedOut ∧ BlankHints hinted ∧ Regular hinted ∧
    toksOf hintedSrc = some (body hintedSrc ++ [.eof]) ∧ KeepsApart hinted (body hintedSrc) ∧
    (∃ pre post, lexLua hintedOut = some (pre ++ ⟨18, .openRound, 19⟩ :: post) ∧ behindTokens pre = 1 ∧
      (hintedOut.drop 1).take (18 - 1) = L!" --[[u]] --[[v]" ++ ']' :: L!" ") ∧
    (∃ pre post, lexLua hintedOut = some (pre ++ ⟨36, .openCurly, 37⟩ :: post) ∧ behindTokens pre = 25 ∧
      (hintedOut.drop 25).take (36 - 25) = L!" --[[y]" ++ ']' :: L!"   ") ∧
    (∃ pre post, lexLua hintedOut = some (pre ++ ⟨62, .closeCurly, 63⟩ :: post) ∧ behindTokens pre = 51 ∧
      (hintedOut.drop 51).take (62 - 51) = L!" --[[w]" ++ ']' :: L!"   ") ∧
    (∃ pre post, lexLua hintedOut = some (pre ++ ⟨79, .eof, 79⟩ :: post) ∧ behindTokens pre = 70 ∧
      (hintedOut.drop 70).take (79 - 70) = L!" --[[e]" ++ ']' :: L!" ") := by
  refine ⟨by decide +kernel, by constructor <;> simp +decide, ⟨rfl, by decide +kernel, by decide +kernel, fun h => absurd h (by decide +kernel)⟩,
    by decide +kernel,
    keepsApart_of (by decide +kernel) (.inr ⟨by decide +kernel, .inr ⟨L!" ", by decide +kernel, by decide⟩, by decide +kernel⟩), ?_, ?_, ?_, ?_⟩
  · exact ⟨hintedTokens.take 1, hintedTokens.drop 2, by decide +kernel, by decide +kernel, by decide +kernel⟩
  · exact ⟨hintedTokens.take 6, hintedTokens.drop 7, by decide +kernel, by decide +kernel, by decide +kernel⟩
  · exact ⟨hintedTokens.take 8, hintedTokens.drop 9, by decide +kernel, by decide +kernel, by decide +kernel⟩
  · exact ⟨hintedTokens.take 10, [], by decide +kernel, by decide +kernel, by decide +kernel⟩

/-- Without `remove_spaces_between_tokens` the blanks of the source stay, and the hint is written only where there are none. -/
theorem C49_fails_without_options : format (cfg [(L!"hint_after_multiline_comment", L!" ")]) L!"a --[[x]]   =--[[y]]1" =
    .ok L!"a --[[x]]   =--[[y]] 1" := by decide +kernel

end Luafmt
