import Verif.Props.Spacing

/-
C46: comments on lines of their own.
-/
namespace Luafmt
open Spec

/-- Where the text behind the tokens `pre` begins. -/
def Spec.behindTokens (pre : List TokL) : Nat := (pre.getLast?.map (·.r)).getD 0

/-- C46: if the four options for it are set, every comment begins a line. The text between the tokens `pre` and the next
token `t` of the output is `a ++ "--" ++ b`, where `a` consists of blanks and complete comments, so a comment begins behind
`a`. Then the text up to there ends with a newline and an indentation (or the hint before comments). -/
theorem C46_comments_begin_lines (c : Config) (src out : Str) (toks : List Token) (hh : BlankHints c) (hc : CommentLines c)
    (hf : format c src = .ok out) (ht : toksOf src = some (toks ++ [.eof])) (hk : KeepsApart c toks)
    (pre post : List TokL) (t : TokL) (hlex : lexLua out = some (pre ++ t :: post)) (a b : Str)
    (hK : (out.drop (behindTokens pre)).take (t.l - behindTokens pre) = a ++ '-' :: '-' :: b) (ha : Gap a) :
    AtLine c (out.take (behindTokens pre + a.length)) := by
  obtain ⟨tree', os, _, h1, h2, h3⟩ := format_spaced hh hc.range hf ht hk
  rw [hlex] at h1
  have h1 := Option.some.inj h1
  have key := (h3.lined hc (D := []) rfl (fun K h => Lined.drop (y := ' ') (by decide) h) h1.symm rfl).at hK ha
  have e : out.take (behindTokens pre + a.length) = out.take (behindTokens pre) ++ a := by
    rw [List.take_add]
    congr 1
    have : a <+: out.drop (behindTokens pre) := by
      have h : a <+: (out.drop (behindTokens pre)).take (t.l - behindTokens pre) := by rw [hK]; exact List.prefix_append _ _
      exact h.trans (List.take_prefix _ _)
    exact (List.prefix_iff_eq_take.mp this).symm
  rw [e]
  exact key

/-! ### The hypotheses hold for concrete runs, and the limits of the claim -/

def lined : Config := cfg [(L!"newline_format_oneline_comment", L!"1"), (L!"newline_format_multiline_comment", L!"1"),
  (L!"newline_format_first_oneline_comment", L!"1"), (L!"newline_format_first_multiline_comment", L!"1"),
  (L!"indentation_string", L!"    "), (L!"hint_before_comment", L!" ")]

def linedSrc : Str := L!"#!/bin/lua\n--x\nfunction f() -- c\n --[[d]] return 1  --[[e]]--[[f]] -- g\n  end\n"

def linedOut : Str :=
  L!"#!/bin/lua\n --x\nfunction f()\n    -- c\n    --[[d]] return 1 \n--[[e]]\n--[[f]]\n-- g\n  end\n"

def linedTokens : List TokL := [⟨0, .sheBang L!"#!/bin/lua", 11⟩, ⟨16, .kwFunction, 24⟩, ⟨25, .variable L!"f", 26⟩,
  ⟨26, .openRound, 27⟩, ⟨27, .closeRound, 28⟩, ⟨50, .kwReturn, 56⟩, ⟨57, .numeral L!"1", 58⟩, ⟨83, .kwEnd, 86⟩, ⟨87, .eof, 87⟩]

/-- The hypotheses hold for a program with comments of both kinds: behind `)` there are two comments, the second of which
begins behind the first and the indentation of its line; behind the shebang line there is one. -/
example : format lined linedSrc = .ok linedOut ∧ BlankHints lined ∧ CommentLines lined ∧
    toksOf linedSrc = some (body linedSrc ++ [.eof]) ∧ KeepsApart lined (body linedSrc) ∧
    (∃ pre post, lexLua linedOut = some (pre ++ ⟨50, .kwReturn, 56⟩ :: post) ∧ behindTokens pre = 28 ∧
      (linedOut.drop 28).take (50 - 28) = L!"\n    -- c\n    " ++ '-' :: '-' :: L!"[[d]] ") ∧ Gap L!"\n    -- c\n    " ∧
    (∃ pre post, lexLua linedOut = some (pre ++ ⟨16, .kwFunction, 24⟩ :: post) ∧ behindTokens pre = 11 ∧
      (linedOut.drop 11).take (16 - 11) = L!" " ++ '-' :: '-' :: L!"x\n") ∧ Gap L!" " := by
  refine ⟨by decide +kernel, by constructor <;> simp +decide, ⟨rfl, by decide +kernel, by decide +kernel, by decide +kernel,
    by decide +kernel⟩, by decide +kernel, keepsApart_of (by decide +kernel) (.inl (by decide +kernel)), ?_, ?_, ?_, ?_⟩
  · exact ⟨linedTokens.take 5, linedTokens.drop 6, by decide +kernel, by decide +kernel, by decide +kernel⟩
  · refine .blank _ _ (by decide) (.blank _ _ (by decide) (.blank _ _ (by decide) (.blank _ _ (by decide) (.blank _ _ (by decide)
      (.line L!" c" _ ⟨by decide, ?_⟩ ?_)))))
    · rintro n ⟨t, h⟩
      cases h
    · exact .blank _ _ (by decide) (.blank _ _ (by decide) (.blank _ _ (by decide) (.blank _ _ (by decide) .nil)))
  · exact ⟨linedTokens.take 1, linedTokens.drop 2, by decide +kernel, by decide +kernel, by decide +kernel⟩
  · exact .blank _ _ (by decide) .nil

/-- The options for the first comment are needed: without them it stays behind the token. -/
theorem C46_fails_without_first : format (cfg [(L!"newline_format_oneline_comment", L!"1"), (L!"newline_format_multiline_comment", L!"1")])
    L!"a = 1 -- c\n" = .ok L!"a = 1 -- c\n" := by decide +kernel

/-- The options for the other comments are needed: without them the second comment stays behind the first. -/
theorem C46_fails_without_later : format (cfg [(L!"newline_format_first_oneline_comment", L!"1"),
    (L!"newline_format_first_multiline_comment", L!"1")]) L!"a = 1 -- c\n --[[d]] --[[e]]\n" =
    .ok L!"a = 1\n-- c\n --[[d]] --[[e]]\n" := by decide +kernel

end Luafmt
