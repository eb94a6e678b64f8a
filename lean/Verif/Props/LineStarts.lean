import Verif.Props.AfterComment

/-
C50: the blanks before the first token of a line.
-/
namespace Luafmt
open Spec

/-- C50: the text between the tokens `pre` and the next token `t` of the output, where it has a newline and no comment behind
it, ends with whole levels of indentation; before a brace the hint of tables may follow. -/
theorem C50_behind_the_last_newline (c : Config) (src out : Str) (toks : List Token) (hh : BlankHints c) (hc : Regular c)
    (hl : LineHints c) (hf : format c src = .ok out) (ht : toksOf src = some (toks ++ [.eof])) (hk : KeepsApart c toks)
    (pre post : List TokL) (t : TokL) (hlex : lexLua out = some (pre ++ t :: post)) :
    Indented c t.tok ((out.drop (behindTokens pre)).take (t.l - behindTokens pre)) := by
  obtain ⟨tree', os, _, h1, h2, h3⟩ := format_spaced hh hc.range hf ht hk
  rw [hlex] at h1
  have h1 := Option.some.inj h1
  refine After.start (h3.behind id hc (D := []) rfl h1.symm rfl rfl) hl ?_
  have : t ∈ os ++ [⟨out.length, .eof, out.length⟩] := by rw [← h1]; simp
  rcases List.mem_append.mp this with h | h
  · exact .inr (h2 t h)
  · rw [List.mem_singleton.mp h]
    exact .inl rfl

/-- C50: a token of the output that has only spaces and tabs before it on its line stands behind whole levels of indentation,
and before a brace the hint of tables may follow. The line behind a line `#!…` is left out. -/
theorem C50_first_token_of_a_line (c : Config) (src out : Str) (toks : List Token) (hh : BlankHints c) (hc : Regular c)
    (hl : LineHints c) (hf : format c src = .ok out) (ht : toksOf src = some (toks ++ [.eof])) (hk : KeepsApart c toks)
    (pre post : List TokL) (t : TokL) (hlex : lexLua out = some (pre ++ t :: post))
    (hs : ∀ p ∈ pre.getLast?, ∀ s, p.tok ≠ .sheBang s)
    (a b : Str) (hb : out.take t.l = a ++ '\n' :: b) (hw : ∀ ch ∈ b, ch = ' ' ∨ ch = '\t') :
    ∃ k, b = indentation c k ∨ (t.tok = .openCurly ∨ t.tok = .closeCurly) ∧ b = indentation c k ++ braces c := by
  have hI := C50_behind_the_last_newline c src out toks hh hc hl hf ht hk pre post t hlex
  obtain ⟨tree', os, _, h1, h2, h3⟩ := format_spaced hh hc.range hf ht hk
  rw [hlex] at h1
  have h1 := Option.some.inj h1
  have hle : behindTokens pre ≤ t.l := h3.le (n := 0) h1.symm (by simp) rfl
  have hn : '\n' ∉ b := fun h => by rcases hw _ h with e | e <;> cases e
  have hr : ']' ∉ b := fun h => by rcases hw _ h with e | e <;> cases e
  have e : out.take t.l = out.take (behindTokens pre) ++ (out.drop (behindTokens pre)).take (t.l - behindTokens pre) := by
    conv => lhs; rw [← Nat.add_sub_of_le hle]
    exact List.take_add
  generalize (out.drop (behindTokens pre)).take (t.l - behindTokens pre) = K at hI e
  have hq : out.take (behindTokens pre) = [] ∨ ∃ u x, out.take (behindTokens pre) = u ++ [x] ∧ x ≠ ' ' ∧ x ≠ '\t' ∧ x ≠ '\n' := by
    rcases List.eq_nil_or_concat pre with rfl | ⟨us, p, rfl⟩
    · left; rfl
    · right
      have hos : ∃ vs, os = us ++ p :: vs := by
        rcases List.eq_nil_or_concat (t :: post) with h | ⟨vs, v, h⟩
        · cases h
        · rw [List.concat_eq_append] at h
          rw [h, List.concat_eq_append, ← List.append_assoc] at h1
          have := List.append_inj_left' h1 rfl
          exact ⟨vs, by rw [← this]; simp⟩
      obtain ⟨vs, hos⟩ := hos
      obtain ⟨u, hu⟩ := Spaced.upto (D := []) (hos ▸ h3) rfl
      obtain ⟨n, hp⟩ := h2 p (by rw [hos]; simp)
      obtain ⟨x, hx, h4, h5, h6⟩ := reads_last hp
      refine ⟨u ++ (spell p.tok).dropLast, x, ?_, h4, h5, fun h => ?_⟩
      · have hb : behindTokens (us.concat p) = p.r := by simp [behindTokens]
        rw [List.nil_append] at hu
        rw [hb, hu, List.append_assoc, ← getLast?_split hx]
      · obtain ⟨s, h7⟩ := h6 h
        exact hs p (by simp) s h7
  by_cases hK : '\n' ∈ K
  · obtain ⟨a', b', rfl, hn'⟩ := last_newline hK
    have : b = b' := by
      have h5 := hb.symm.trans e
      rw [← List.append_assoc] at h5
      exact last_bracket_eq h5 hn hn'
    subst this
    exact hI a' b rfl hn hr
  · exfalso
    have h5 := hb.symm.trans e
    obtain ⟨b0, e1, e2⟩ := last_bracket_left h5.symm hK
    rcases hq with hq | ⟨u, x, hq, h6, h7, h8⟩
    · rw [hq] at e1; simp at e1
    · rw [hq] at e1
      rcases List.eq_nil_or_concat b0 with rfl | ⟨v, y, rfl⟩
      · have := (List.append_inj' e1 rfl).2
        simp at this
        exact h8 this
      · rw [List.concat_eq_append, show a ++ '\n' :: (v ++ [y]) = (a ++ '\n' :: v) ++ [y] by simp] at e1
        have := (List.append_inj' e1 rfl).2
        simp at this
        subst this
        rcases hw x (by rw [e2]; simp) with h | h
        · exact h6 h
        · exact h7 h

/-! ### The hypotheses hold for a concrete run, and the limits of the claim -/

def startCfg : Config := cfg [(L!"remove_spaces_between_tokens", L!"true"), (L!"replace_zero_spaces_with_hint", L!"true"),
  (L!"hint_before_comment", L!" "), (L!"hint_after_multiline_comment", L!" "), (L!"hint_table_constructor", L!" "),
  (L!"indentation_string", L!"   "), (L!"newline_format_statement", L!"1"), (L!"newline_format_if", L!"1")]

def startSrc : Str := L!"if a then f() --x\n   --[[y]] g() end t = \n {  1,\n    2\n    }"

def startOut : Str := L!"if a then\n   f() --x\n --[[y]]\n   g()\nend\nt =\n { 1,\n2\n}"

def startTokens : List TokL := [⟨0, .kwIf, 2⟩, ⟨3, .variable L!"a", 4⟩, ⟨5, .kwThen, 9⟩, ⟨13, .variable L!"f", 14⟩,
  ⟨14, .openRound, 15⟩, ⟨15, .closeRound, 16⟩, ⟨33, .variable L!"g", 34⟩, ⟨34, .openRound, 35⟩, ⟨35, .closeRound, 36⟩,
  ⟨37, .kwEnd, 40⟩, ⟨41, .variable L!"t", 42⟩, ⟨43, .equalsSign, 44⟩, ⟨46, .openCurly, 47⟩, ⟨48, .numeral L!"1", 49⟩,
  ⟨49, .comma, 50⟩, ⟨51, .numeral L!"2", 52⟩, ⟨53, .closeCurly, 54⟩, ⟨54, .eof, 54⟩]

/-- The hypotheses hold for a program with three tokens that begin a line: `g` is behind one level of indentation, `end` behind
none (both newlines are written by options), and `{` behind the hint of tables (at a newline of the source). -/
example : format startCfg startSrc = .ok startOut ∧ BlankHints startCfg ∧ Regular startCfg ∧ LineHints startCfg ∧
    toksOf startSrc = some (body startSrc ++ [.eof]) ∧ KeepsApart startCfg (body startSrc) ∧
    (lexLua startOut = some (startTokens.take 6 ++ ⟨33, .variable L!"g", 34⟩ :: startTokens.drop 7) ∧
      startOut.take 33 = L!"if a then\n   f() --x\n --[[y]]" ++ '\n' :: L!"   " ∧ L!"   " = indentation startCfg 1) ∧
    (lexLua startOut = some (startTokens.take 9 ++ ⟨37, .kwEnd, 40⟩ :: startTokens.drop 10) ∧
      startOut.take 37 = L!"if a then\n   f() --x\n --[[y]]\n   g()" ++ '\n' :: [] ∧ [] = indentation startCfg 0) ∧
    (lexLua startOut = some (startTokens.take 12 ++ ⟨46, .openCurly, 47⟩ :: startTokens.drop 13) ∧
      startOut.take 46 = L!"if a then\n   f() --x\n --[[y]]\n   g()\nend\nt =" ++ '\n' :: L!" " ∧
      L!" " = indentation startCfg 0 ++ braces startCfg) := by
  refine ⟨by decide +kernel, by constructor <;> simp +decide, ⟨rfl, by decide +kernel, by decide +kernel, fun h => absurd h (by decide +kernel)⟩,
    ⟨.inr (by decide +kernel), by decide +kernel, by decide +kernel⟩, by decide +kernel,
    keepsApart_of (by decide +kernel) (.inr ⟨by decide +kernel, .inr ⟨L!" ", by decide +kernel, by decide⟩, by decide +kernel⟩), ?_, ?_, ?_⟩
  · exact ⟨by decide +kernel, by decide +kernel, by decide +kernel⟩
  · exact ⟨by decide +kernel, by decide +kernel, by decide +kernel⟩
  · exact ⟨by decide +kernel, by decide +kernel, by decide +kernel⟩

/-- Without `remove_spaces_between_tokens` the blanks of the source stay before the first token of a line. -/
theorem C50_fails_without_options : format (cfg [(L!"replace_zero_spaces_with_hint", L!"true")]) L!"t = 1\n  s = 2" =
    .ok L!"t = 1\n  s = 2" := by decide +kernel

/-- A comment that begins a line is not indented but stands behind its hint. -/
theorem C50_comments_are_not_indented : format startCfg startSrc =
    .ok (L!"if a then\n   f() --x" ++ '\n' :: beforeComment startCfg ++ L!"--[[y]]\n   g()\nend\nt =\n { 1,\n2\n}") := by
  decide +kernel

end Luafmt
