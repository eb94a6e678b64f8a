import Verif.Props.Spacing

/-
C43 and C44: what stands behind a token of the output, up to the end of its line.
-/
namespace Luafmt
open Spec

/-- C43, C44: behind a token there are only blanks up to the next token, or a newline follows at once, or a comment follows
behind `hint_before_comment`. -/
theorem C43_behind_a_token (c : Config) (src out : Str) (toks : List Token) (hh : BlankHints c) (hc : Regular c) (hw : Narrow c)
    (hf : format c src = .ok out) (ht : toksOf src = some (toks ++ [.eof])) (hk : KeepsApart c toks)
    (pre post : List TokL) (p t : TokL) (hlex : lexLua out = some (pre ++ p :: t :: post))
    (hp : ∀ s, p.tok ≠ .sheBang s) : Next c ((out.drop p.r).take (t.l - p.r)) := by
  obtain ⟨tree', os, _, h1, h2, h3⟩ := format_spaced hh hc.range hf ht hk
  have hsb : isSheBang p.tok = false := by
    generalize p.tok = k at hp
    cases k <;> first | rfl | exact absurd rfl (hp _)
  have hne : p ∈ os → spell p.tok ≠ [] := by
    intro hm e
    obtain ⟨n, hr⟩ := h2 p hm
    obtain ⟨ch, h, _⟩ := reads_last hr
    rw [e] at h
    cases h
  rw [hlex] at h1
  have h1 := Option.some.inj h1
  rcases List.eq_nil_or_concat post with rfl | ⟨post', e, rfl⟩
  · have : (pre ++ [p]) ++ [t] = os ++ [⟨out.length, .eof, out.length⟩] := by rw [← h1]; simp
    obtain ⟨hos, hte⟩ := List.append_inj' this rfl
    cases hte
    subst hos
    have := h3.lastNext (D := []) hc hw rfl (last_ne_newline (h2 p (by simp)) hsb) (hne (by simp))
    rw [List.nil_append] at this
    rw [List.take_of_length_le (by simp)]
    exact this
  · have : (pre ++ p :: t :: post') ++ [e] = os ++ [⟨out.length, .eof, out.length⟩] := by
      rw [← h1, List.concat_eq_append]; simp
    have hos := (List.append_inj' this rfl).1
    subst hos
    exact h3.pairNext (D := []) hc hw rfl (last_ne_newline (h2 p (by simp)) hsb) (hne (by simp))

/-- C43: a line that ends behind a token does not end with blanks: where the text `K` behind a token has a newline before any
comment, the newline is its first character. -/
theorem C43_no_blanks_at_line_ends (c : Config) (src out : Str) (toks : List Token) (hh : BlankHints c) (hc : Regular c) (hw : Narrow c)
    (hb : '\n' ∉ beforeComment c) (hf : format c src = .ok out) (ht : toksOf src = some (toks ++ [.eof])) (hk : KeepsApart c toks)
    (pre post : List TokL) (p t : TokL) (hlex : lexLua out = some (pre ++ p :: t :: post))
    (hp : ∀ s, p.tok ≠ .sheBang s) (a b : Str) (hK : (out.drop p.r).take (t.l - p.r) = a ++ '\n' :: b)
    (ha : '\n' ∉ a) (hd : '-' ∉ a) : a = [] := by
  have := C43_behind_a_token c src out toks hh hc hw hf ht hk pre post p t hlex hp
  rw [hK] at this
  rcases this with ⟨h, _⟩ | h | ⟨k, h⟩
  · simp at h
  · cases a with
    | nil => rfl
    | cons y a =>
      simp at h
      simp [h] at ha
  · exfalso
    rcases List.append_eq_append_iff.mp h with ⟨u, h1, h2⟩ | ⟨u, h1, h2⟩
    · cases u with
      | nil => simp at h2
      | cons y u =>
        simp at h2
        rw [h1, ← h2.1] at hb
        simp at hb
    · cases u with
      | nil => simp at h2
      | cons y u =>
        simp at h2
        rw [h1, ← h2.1] at hd
        simp at hd

/-- C44: a comment that follows a token on the same line stands behind exactly `hint_before_comment`. -/
theorem C44_hint_before_a_comment (c : Config) (src out : Str) (toks : List Token) (hh : BlankHints c) (hc : Regular c) (hw : Narrow c)
    (hf : format c src = .ok out) (ht : toksOf src = some (toks ++ [.eof])) (hk : KeepsApart c toks)
    (pre post : List TokL) (p t : TokL) (hlex : lexLua out = some (pre ++ p :: t :: post))
    (hp : ∀ s, p.tok ≠ .sheBang s) (a b : Str) (hK : (out.drop p.r).take (t.l - p.r) = a ++ '-' :: b)
    (ha : '\n' ∉ a) (hd : '-' ∉ a) : a = beforeComment c := by
  have := C43_behind_a_token c src out toks hh hc hw hf ht hk pre post p t hlex hp
  rw [hK] at this
  rcases this with ⟨_, h⟩ | h | ⟨k, h⟩
  · simp at h
  · cases a with
    | nil => cases h
    | cons y a =>
      simp at h
      simp [h] at ha
  · have hb : '-' ∉ beforeComment c := by
      intro hm
      unfold beforeComment at hm
      cases hs : c.str .hintBeforeComment with
      | none => rw [hs] at hm; cases hm
      | some s =>
        rw [hs] at hm
        have := hh.hints .hintBeforeComment (by decide) s hs '-' hm
        revert this
        decide
    rcases List.append_eq_append_iff.mp h with ⟨u, h1, h2⟩ | ⟨u, h1, h2⟩
    · cases u with
      | nil => simpa using h1.symm
      | cons y u =>
        simp at h2
        rw [h1, ← h2.1] at hb
        simp at hb
    · cases u with
      | nil => simpa using h1
      | cons y u =>
        simp at h2
        rw [h1, ← h2.1] at hd
        simp at hd

/-! ### The hypotheses hold for concrete runs, and the limits of the claims -/

/-- A configuration that breaks lines at table fields and functions, with two blanks before comments. -/
def neat : Config := cfg [(L!"remove_spaces_between_tokens", L!"true"), (L!"replace_zero_spaces_with_hint", L!"true"),
  (L!"hint_before_comment", L!"  "), (L!"hint_table_constructor", L!" "), (L!"newline_format_table_field", L!"1"),
  (L!"newline_format_function", L!"1"), (L!"indentation_string", L!"    ")]

def neatSrc : Str := L!"function f() -- c\n return 1  --[[d]]\n  end   \n\n t={1,  \n\n2}--c\n--d\n"

def neatOut : Str :=
  L!"function f()  -- c\n    return 1  --[[d]]\nend\n\nt =  {\n    1,\n\n    2 }  --c\n  --d\n"

theorem regular_neat : Regular neat :=
  ⟨rfl, by decide +kernel, by decide +kernel, fun h => absurd h (by decide +kernel)⟩

/-- The hypotheses hold for a program with broken lines and comments: behind `)` the first comment follows, behind `{` the
end of the line. -/
example : format neat neatSrc = .ok neatOut ∧ BlankHints neat ∧ Regular neat ∧ Narrow neat ∧ '\n' ∉ beforeComment neat ∧
    toksOf neatSrc = some (body neatSrc ++ [.eof]) ∧ KeepsApart neat (body neatSrc) ∧
    (∃ pre post, lexLua neatOut = some (pre ++ ⟨11, .closeRound, 12⟩ :: ⟨23, .kwReturn, 29⟩ :: post) ∧
      (neatOut.drop 12).take (23 - 12) = L!"  " ++ '-' :: L!"- c\n    ") ∧
    (∃ pre post, lexLua neatOut = some (pre ++ ⟨51, .openCurly, 52⟩ :: ⟨57, .numeral L!"1", 58⟩ :: post) ∧
      (neatOut.drop 52).take (57 - 52) = [] ++ '\n' :: L!"    ") := by
  refine ⟨by decide +kernel, by constructor <;> simp +decide, regular_neat, .inr (by decide +kernel), by decide +kernel,
    by decide +kernel,
    keepsApart_of (by decide +kernel) (.inr ⟨by decide +kernel, .inr ⟨L!"  ", by decide +kernel, by decide⟩, by decide +kernel⟩), ?_, ?_⟩
  · have : ((lexLua neatOut).map fun ts => (ts.drop 3).take 2) = some [⟨11, .closeRound, 12⟩, ⟨23, .kwReturn, 29⟩] := by decide +kernel
    obtain ⟨ts, h1, h2⟩ := Option.map_eq_some_iff.mp this
    refine ⟨ts.take 3, (ts.drop 3).drop 2, ?_, by decide +kernel⟩
    rw [h1, ← List.take_append_drop 3 ts]
    simp only [Option.some.injEq]
    rw [List.take_append_drop]
    conv => lhs; rw [← List.take_append_drop 3 ts, ← List.take_append_drop 2 (ts.drop 3), h2]
    rfl
  · have : ((lexLua neatOut).map fun ts => (ts.drop 9).take 2) = some [⟨51, .openCurly, 52⟩, ⟨57, .numeral L!"1", 58⟩] := by decide +kernel
    obtain ⟨ts, h1, h2⟩ := Option.map_eq_some_iff.mp this
    refine ⟨ts.take 9, (ts.drop 9).drop 2, ?_, by decide +kernel⟩
    rw [h1]
    conv => lhs; rw [← List.take_append_drop 9 ts, ← List.take_append_drop 2 (ts.drop 9), h2]
    rfl

/-- A hint of tables with two blanks leaves a blank at the end of the line (only one is taken back). -/
theorem C43_fails_for_a_wide_table_hint : ∃ c, c = cfg [(L!"remove_spaces_between_tokens", L!"true"),
    (L!"replace_zero_spaces_with_hint", L!"true"), (L!"hint_table_constructor", L!"  "), (L!"newline_format_table_field", L!"1")] ∧
    format c L!"t={1}" = .ok L!"t =   { \n1  }" := ⟨_, rfl, by decide +kernel⟩

/-- Lines without a token are not covered: where a newline is asked for twice, a line with blanks remains between. -/
theorem C43_fails_for_lines_without_tokens : ∃ c, c = cfg [(L!"remove_spaces_between_tokens", L!"true"),
    (L!"replace_zero_spaces_with_hint", L!"true"), (L!"indentation_string", L!"    "), (L!"newline_format_table_field", L!"1"),
    (L!"write_newline_at_multiline_table", L!"true")] ∧
    format c L!"t={1,{2}}" = .ok L!"t =\n{\n    1,\n   \n    {\n        2}}" := ⟨_, rfl, by decide +kernel⟩

/-- Without `remove_spaces_between_tokens` the blanks at the ends of lines stay, and those before comments. -/
theorem C43_fails_without_options : format (cfg [(L!"hint_before_comment", L!" ")]) L!"a = 1 \nb = 2   --c" = .ok L!"a = 1 \nb = 2   --c\n" := by
  decide +kernel

end Luafmt
