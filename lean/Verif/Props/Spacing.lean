import Verif.Props.Output
import Verif.Spec.Spacing
import Verif.Proofs.Spaced

/-
C42: the blanks between two tokens on one line of the output.
-/
namespace Luafmt
open Spec

/-- C42: between two adjacent tokens of the output, on one line and without a comment between them, there are the blanks that
`Spec.Between` states, whatever the source has there. -/
theorem C42_blanks_between_tokens (c : Config) (src out : Str) (toks : List Token) (hh : BlankHints c) (hc : Regular c)
    (hf : format c src = .ok out) (ht : toksOf src = some (toks ++ [.eof])) (hk : KeepsApart c toks)
    (outToks pre post : List TokL) (p t : TokL) (hlex : lexLua out = some outToks) (ho : outToks = pre ++ p :: t :: post)
    (hp : ∀ s, p.tok ≠ .sheBang s) (hte : t.tok ≠ .eof)
    (hn : '\n' ∉ (out.drop p.r).take (t.l - p.r)) (hd : '-' ∉ (out.drop p.r).take (t.l - p.r)) :
    Between c p.tok t.tok ((out.drop p.r).take (t.l - p.r)) := by
  obtain ⟨tree', os, _, h1, h2, h3⟩ := format_spaced hh hc.range hf ht hk
  have hsb : isSheBang p.tok = false := by
    generalize p.tok = k at hp
    cases k <;> first | rfl | exact absurd rfl (hp _)
  rw [hlex] at h1
  have h1 := Option.some.inj h1
  rw [ho] at h1
  obtain ⟨post', hos⟩ : ∃ post', os = pre ++ p :: t :: post' := by
    rcases List.eq_nil_or_concat post with rfl | ⟨post', e, rfl⟩
    · have := congrArg List.getLast? h1
      simp at this
      exact absurd (by rw [this]) hte
    · refine ⟨post', ?_⟩
      rw [List.concat_eq_append] at h1
      have : (pre ++ p :: t :: post') ++ [e] = os ++ [⟨out.length, .eof, out.length⟩] := by
        rw [← h1]; simp
      exact (List.append_inj' this rfl).1.symm
  subst hos
  have := h3.pair (D := []) hc rfl (last_ne_newline (h2 p (by simp)) hsb) hn hd
  exact this.between hsb

/-- C42: the first token of the output has no blanks before it on its line. -/
theorem C42_no_blanks_at_the_beginning (c : Config) (src out : Str) (toks : List Token) (hh : BlankHints c) (hc : Regular c)
    (hf : format c src = .ok out) (ht : toksOf src = some (toks ++ [.eof])) (hk : KeepsApart c toks)
    (t : TokL) (post : List TokL) (hlex : lexLua out = some (t :: post)) (hte : t.tok ≠ .eof)
    (hn : '\n' ∉ out.take t.l) (hd : '-' ∉ out.take t.l) : t.l = 0 := by
  obtain ⟨tree', os, h0, h1, h2, h3⟩ := format_spaced hh hc.range hf ht hk
  have hcu := first_not_curly h0 hlex
  rw [hlex] at h1
  have h1 := Option.some.inj h1
  cases os with
  | nil =>
    simp at h1
    exact absurd (by rw [h1.1]) hte
  | cons u os =>
    simp only [List.cons_append, List.cons.injEq] at h1
    obtain ⟨rfl, _⟩ := h1
    have hl : t.l ≤ out.length := by
      cases h3 with
      | tok _ _ _ _ hp _ => rw [hp.1]; simp
    obtain ⟨b, h4, h5⟩ := h3.first (D := []) hc (by decide) rfl (by simpa using hn) (by simpa using hd)
    have hb : b = [] := h4
    subst hb
    have := h5.resolve_right fun h => hcu h.1
    have := congrArg List.length this
    simp at this
    rcases this with h | h
    · exact h
    · rw [h] at hl
      simpa using hl

/-- C42: behind the last token of the output there are no blanks at the end of the text. -/
theorem C42_no_blanks_at_the_end (c : Config) (src out : Str) (toks : List Token) (hh : BlankHints c) (hc : Regular c)
    (hf : format c src = .ok out) (ht : toksOf src = some (toks ++ [.eof])) (hk : KeepsApart c toks)
    (pre : List TokL) (p e : TokL) (hlex : lexLua out = some (pre ++ [p, e])) (hp : ∀ s, p.tok ≠ .sheBang s)
    (hn : '\n' ∉ out.drop p.r) (hd : '-' ∉ out.drop p.r) : out.drop p.r = [] := by
  obtain ⟨tree', os, _, h1, h2, h3⟩ := format_spaced hh hc.range hf ht hk
  have hsb : isSheBang p.tok = false := by
    generalize p.tok = k at hp
    cases k <;> first | rfl | exact absurd rfl (hp _)
  rw [hlex] at h1
  have h1 := Option.some.inj h1
  have : (pre ++ [p]) ++ [e] = os ++ [⟨out.length, .eof, out.length⟩] := by rw [← h1]; simp
  have hos := (List.append_inj' this rfl).1
  subst hos
  exact h3.last (D := []) hc rfl (last_ne_newline (h2 p (by simp)) hsb) hn hd

/-- A configuration for which the blanks are determined; comments are kept. -/
def tidy : Config := cfg [(L!"remove_spaces_between_tokens", L!"true"), (L!"replace_zero_spaces_with_hint", L!"true"),
  (L!"hint_before_comment", L!" "), (L!"hint_table_constructor", L!" ")]

def tidySrc : Str :=
  L!"local  t={1 ,x=- 2 }  -- c\nfunction  f ( a,b )return a+b*  #t [ 1 ] end\nif not(f(1,2)==3)then t . x = { }  end  "

def tidyOut : Str :=
  L!"local t =  { 1, x = -2 } -- c\nfunction f(a, b) return a + b * #t[1] end\nif not (f(1, 2) == 3) then t.x = { } end"

theorem regular_tidy : Regular tidy :=
  ⟨rfl, by decide +kernel, by decide +kernel, fun h => absurd h (by decide +kernel)⟩

/-- The hypotheses hold for a program with calls, tables, operators and a comment; adjacent tokens of its output are `local`
and `t`. -/
example : format tidy tidySrc = .ok tidyOut ∧ BlankHints tidy ∧ Regular tidy ∧
    toksOf tidySrc = some (body tidySrc ++ [.eof]) ∧ KeepsApart tidy (body tidySrc) ∧
    ∃ post, lexLua tidyOut = some ([] ++ ⟨0, .kwLocal, 5⟩ :: ⟨6, .variable L!"t", 7⟩ :: post) ∧
      '\n' ∉ (tidyOut.drop 5).take (6 - 5) ∧ '-' ∉ (tidyOut.drop 5).take (6 - 5) := by
  refine ⟨by decide +kernel, by constructor <;> simp +decide [tidy], regular_tidy, by decide +kernel,
    keepsApart_of (by decide +kernel) (.inr ⟨by decide +kernel, .inr ⟨L!" ", by decide +kernel, by decide⟩, by decide +kernel⟩), ?_⟩
  have : ((lexLua tidyOut).map fun ts => (ts.take 2)) = some [⟨0, .kwLocal, 5⟩, ⟨6, .variable L!"t", 7⟩] := by decide +kernel
  obtain ⟨ts, h1, h2⟩ := Option.map_eq_some_iff.mp this
  refine ⟨ts.drop 2, ?_, by decide +kernel, by decide +kernel⟩
  rw [h1, ← List.take_append_drop 2 ts, h2]
  rfl

/-- The statement excludes other blanks: two around `=`, none behind a comma, one before an index. -/
example : ¬ Between tidy (.variable L!"a") .equalsSign L!"  " ∧ ¬ Between tidy .comma (.variable L!"b") [] ∧
    ¬ Between tidy (.variable L!"t") .openSquare L!" " ∧ ¬ Between tidy .openCurly (.numeral L!"1") [] := by
  refine ⟨?_, ?_, ?_, ?_⟩ <;>
  · rintro ⟨b, h1, h2⟩
    simp [spacing, isInfix, isOpening, isWord] at h1
    subst h1
    revert h2
    decide +kernel

/-- Before the `{` of a table that is not empty the hint of tables is written in addition to the blank: two blanks. -/
theorem C42_doubled_blank_before_table : format tidy L!"t={1}" = .ok L!"t =  { 1 }" := by decide +kernel

/-- Without the two options the blanks are those of the source. -/
theorem C42_fails_without_options : format (cfg [(L!"remove_spaces_between_tokens", L!"true")]) L!"t = 1" = .ok L!"t=1" ∧
    format (cfg [(L!"replace_zero_spaces_with_hint", L!"true")]) L!"t  =1" = .ok L!"t  = 1" := by decide +kernel

/-- The condition on comments that are removed: between two of them `hint_before_comment` remains. -/
theorem C42_fails_for_removed_comments : ∃ c, c = cfg [(L!"remove_spaces_between_tokens", L!"true"),
    (L!"replace_zero_spaces_with_hint", L!"true"), (L!"remove_comments", L!"true"), (L!"hint_before_comment", L!"  ")] ∧
    format c L!"t = --[[c]] --[[d]] 1" = .ok L!"t =  1" := ⟨_, rfl, by decide +kernel⟩

end Luafmt
