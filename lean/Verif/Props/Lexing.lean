import Verif.Proofs.LexProps
import Verif.Model.Formatter

/-
C12, C13, C24, C31, C32: what the lexer reads, and the conversion of quotes.
-/
namespace Luafmt
open Spec

/-- C12. The body that replaces the body of a single-quoted literal denotes, between double quotes, the
same string. -/
theorem C12_conversion_keeps_value (body : Str) (v : List Nat) (h : literalValue '\'' body = some v) :
    literalValue '"' (charToNormal body) = some v :=
  convert_run false .plain body (by simp [Agree]) v h

/-- `'say "\x41\\" \z  it\'s \u{20AC}\65"'`: escapes of all kinds next to quotes. -/
example : literalValue '\'' L!"say \"\\x41\\\\\" \\z  it\\'s \\u{20AC}\\65\"" =
    some [115, 97, 121, 32, 34, 65, 92, 34, 32, 105, 116, 39, 115, 32, 226, 130, 172, 65, 34] ∧
    literalValue '"' (charToNormal L!"say \"\\x41\\\\\" \\z  it\\'s \\u{20AC}\\65\"") =
    some [115, 97, 121, 32, 34, 65, 92, 34, 32, 105, 116, 39, 115, 32, 226, 130, 172, 65, 34] := by
  decide +kernel

/-- C13. A converted single-quoted string of a program, put between double quotes, is read as exactly one
string token, and what follows it is read as if it stood alone. -/
theorem C13_converted_is_one_literal (src : Str) (toks : List TokL) (x : TokL) (body : Str)
    (hlex : lexLua src = some toks) (hx : x ∈ toks) (ht : x.tok = .charString body) (rest : Str) :
    toksOf ('"' :: (charToNormal body ++ '"' :: rest)) =
      (toksOf rest).map (.normalString (charToNormal body) :: ·) := by
  have hok := lexFrom_tokOk 0 src toks hlex x hx
  rw [ht] at hok
  have hs : strState '\'' false body = some false := by
    rcases hok with h | ⟨n, ⟨s, h, _⟩ | ⟨h, _⟩⟩
    · cases h
    · cases h
    · exact h
  have := toksOf_tok (.normalString (charToNormal body)) rest (Or.inr ⟨strState_convert false body hs, by simp [fuse]⟩)
  simpa [spell] using this

/-- C13. Converting a second time changes nothing. -/
theorem C13_conversion_idempotent (body : Str) : charToNormal (charToNormal body) = charToNormal body :=
  convert_idem false body

example : lexLua L!"x = 'a\"b\\'c\\\\' .. y" = some [⟨0, .variable ['x'], 1⟩, ⟨2, .equalsSign, 3⟩,
    ⟨4, .charString L!"a\"b\\'c\\\\", 14⟩, ⟨15, .opConcatenation, 17⟩, ⟨18, .variable ['y'], 19⟩,
    ⟨19, .eof, 19⟩] := by decide +kernel

/-- C24. The tokens of a text and the gaps between them tile the text. -/
theorem C24_tokens_tile (src : Str) (toks : List TokL) (h : lexLua src = some toks) : Tiles src 0 toks :=
  lexFrom_tiles 0 src toks h

/-- C24, the other way around: a text made of gaps and spelled tokens, in which no token is continued by
the character behind it, is read as exactly these tokens. -/
theorem C24_woven_text_is_read (l : List (Str × Token)) (e : Str) (h : Woven l e) :
    toksOf (weave l e) = some (l.map Prod.snd ++ [.eof]) := lexFrom_weave l e h 0

example : lexLua L!"--[==[ c ]] ]==] local x<=0x1F -- e" =
    some [⟨17, .kwLocal, 22⟩, ⟨23, .variable L!"x", 24⟩, ⟨24, .opLessOrEqual, 26⟩, ⟨26, .numeral L!"0x1F", 30⟩,
      ⟨35, .eof, 35⟩] := by decide +kernel

/-- C31, lexer part (partial: only numerals without `+` in the exponent, without `0X`, and without
hexadecimal fractions and exponents). Such a numeral is one token with exactly its text. -/
theorem C31_numeral_is_one_token_partial (s rest : Str) (hs : Numeral s) (hsup : ¬ Unsupported s)
    (hr : EndsNumeral rest) : toksOf (s ++ rest) = (toksOf rest).map (.numeral s :: ·) :=
  toksOf_tok (.numeral s) rest (Or.inl ⟨s, rfl, numReads_of_numeral s rest hs hsup hr⟩)

example : Numeral L!"3.25e-7" ∧ ¬ Unsupported L!"3.25e-7" ∧ EndsNumeral L!" .. x" := by
  refine ⟨?_, by simp [Unsupported], by simp [EndsNumeral]; decide⟩
  exact Numeral.dec L!"3" L!"25" L!"e-7" (by decide) (by decide) (by decide)
    (Or.inr ⟨'e', ['-'], ['7'], by decide, by decide, Or.inr (Or.inr rfl), by decide, by decide⟩) (by decide)

/-- C31 does not hold in general: `1e+5` is a Lua numeral, but it is read as three tokens. -/
theorem C31_plus_exponent_is_split : Numeral L!"1e+5" ∧
    toksOf L!"1e+5" = some [.numeral L!"1e", .opAddition, .numeral L!"5", .eof] := by
  refine ⟨?_, by decide +kernel⟩
  exact Numeral.dec L!"1" [] L!"e+5" (by decide) (by decide) (by decide)
    (Or.inr ⟨'e', ['+'], ['5'], by decide, by decide, Or.inr (Or.inl rfl), by decide, by decide⟩) (by decide)

/-- C31 does not hold in general: with `replace_zero_spaces_with_hint` the numeral `1e+5` is torn apart. -/
theorem C31_plus_exponent_is_torn :
    format (Config.default.set L!"replace_zero_spaces_with_hint" L!"true") L!"x = 1e+5" = .ok L!"x = 1e + 5" := by
  decide +kernel

/-- C32 (partial: bodies without backslashes). A long string ends at the first closing bracket of its
level. -/
theorem C32_long_string_closes_partial (n : Nat) (body rest : Str) (hbs : '\\' ∉ body)
    (hfirst : ∀ a c, body ++ closer n = a ++ (closer n ++ c) → body.length ≤ a.length) :
    toksOf (opener n ++ (body ++ (closer n ++ rest))) = (toksOf rest).map (.multiLineString n body :: ·) := by
  have := toksOf_tok (.multiLineString n body) rest (Or.inr ⟨longBody_of_first n body hbs hfirst, by simp [fuse]⟩)
  simpa [spell] using this

/-- C32 (partial: bodies without backslashes). A long comment ends at the first closing bracket of its
level: what follows is read as if the comment were not there. -/
theorem C32_long_comment_closes_partial (n : Nat) (body rest : Str) (hbs : '\\' ∉ body)
    (hfirst : ∀ a c, body ++ closer n = a ++ (closer n ++ c) → body.length ≤ a.length) :
    toksOf ('-' :: '-' :: (opener n ++ (body ++ (closer n ++ rest)))) = toksOf rest := by
  have := toksOf_gap _ rest (Gap.long n body [] (longBody_of_first n body hbs hfirst) .nil)
  simpa using this

/-- The hypothesis of the two theorems for `[=[a]]b]=]`. -/
example : '\\' ∉ L!"a]]b" ∧
    ∀ a c, L!"a]]b" ++ closer 1 = a ++ (closer 1 ++ c) → L!"a]]b".length ≤ a.length := by
  refine ⟨by decide, ?_⟩
  intro a c h
  match a with
  | [] | [_] | [_, _] | [_, _, _] => simp [closer] at h
  | _ :: _ :: _ :: _ :: _ => simp

/-- C32 does not hold in general: a closing bracket behind a backslash is not seen, so `[[a\]]` is
rejected, although it is a string in Lua. -/
theorem C32_backslash_hides_closer : lexLua L!"x = [[a\\]]" = none := by decide +kernel

/-- C32 does not hold in general: here the assignment between the comments is taken for a comment and
`remove_comments` deletes it. -/
theorem C32_backslash_swallows_code :
    format (Config.default.set L!"remove_comments" L!"true") L!"--[[ \\]] x = 1 --[[ ]]" = .ok [] := by
  decide +kernel

end Luafmt
