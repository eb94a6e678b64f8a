import Verif.Props.Progress
import Verif.Props.Trees
import Verif.Proofs.Same

/-
C01: formatting with no option set. C28 for such configurations.
-/
namespace Luafmt
open Spec

theorem Spec.NoOptions.harmless {c : Config} (hc : NoOptions c) (hl : c.lineRange = none) (src : Str) : Harmless c src where
  strings := fun o s ch h _ => by rw [hc.str] at h; cases h
  op := fun h _ => by rw [hc.num] at h; rcases h with h | h <;> cases h
  explist := fun h _ => by rw [hc.num, hc.num] at h; rcases h with h | h <;> cases h
  suffix := fun h _ => absurd (hc.num _) h
  field := fun h _ _ => absurd (hc.num _) h
  range := .inl hl

/-- C01. What formatting does when no option is set: the accepted source is returned up to the places listed in
`Kept`: the end of the text between the braces of an empty table that spans lines, and a comment or shebang line at
the end of the text. -/
theorem C01_no_options_output (c : Config) (hc : NoOptions c) (hl : c.lineRange = none) (src : Str) (hs : Accepted src) :
    ∃ out, format c src = .ok out ∧ Kept (OpenEmptyTable src) src out := by
  rw [accepted_iff, Option.isSome_iff_exists] at hs
  obtain ⟨tree, hp⟩ := hs
  obtain ⟨out, hf⟩ := C06_harmless_run_has_output c src tree hp (hc.harmless hl src)
  refine ⟨out, hf, ?_⟩
  obtain ⟨tree', hp', hE⟩ := format_ok hl hf
  obtain ⟨toks, e, h1, h2, h3⟩ := parseLua_tile c hp'
  have hT := lexFrom_tilesR 0 src _ h1
  have hend := tiles_end h2 (tilesR_tiles hT)
  rw [Nat.zero_add] at hend
  obtain ⟨K, rfl, hK⟩ := kept_of_emits hc (env := ⟨src, none⟩) rfl (all := toks ++ [e]) _ rfl (h3 hend) ⟨[], rfl⟩ (pre := []) rfl rfl hT
    ⟨e, rfl, h2, rfl⟩ hE
  have key : ∀ {E E' : Prop} {s s' : Str}, (E → E') → Kept E s s' → Kept E' s s' := by
    intro E E' s s' he h
    induction h with
    | nil => exact .nil
    | char ch _ ih => exact .char ch ih
    | emptyTable h1 h2 h3 _ ih => exact .emptyTable (he h1) h2 h3 ih
    | comment h => exact .comment h
    | half n => exact .half n
    | shebang h => exact .shebang h
  refine key ?_ hK
  rintro ⟨xs, t, u, ys, k1, k2⟩
  exact ⟨xs, t, u, ys, by rw [h1, k1], k2⟩

theorem Spec.EndsInComment.cons {s : Str} (ch : Char) (h : EndsInComment s) : EndsInComment (ch :: s) := by
  obtain ⟨a, t, rfl, h1, h2⟩ := h
  exact ⟨ch :: a, t, rfl, h1, h2⟩

theorem kept_end {E : Prop} {s s' : Str} (h : Kept E s s') (hE : ¬ E) :
    s' = s ∨ (s' = s ++ ['\n'] ∧ EndsInComment s) ∨ EndsInHalfOpener s := by
  induction h with
  | nil => exact .inl rfl
  | char ch _ ih =>
    rcases ih with rfl | ⟨rfl, ih⟩ | ⟨a, n, rfl⟩
    · exact .inl rfl
    · exact .inr (.inl ⟨rfl, Spec.EndsInComment.cons ch ih⟩)
    · exact .inr (.inr ⟨ch :: a, n, rfl⟩)
  | emptyTable h => exact absurd h hE
  | @comment t h => exact .inr (.inl ⟨rfl, [], '-' :: '-' :: t, rfl, by simpa using h.1, .inl rfl⟩)
  | half n => exact .inr (.inr ⟨[], n, rfl⟩)
  | @shebang t h => exact .inr (.inl ⟨rfl, [], '#' :: '!' :: t, rfl, by simpa using h, .inr rfl⟩)

/-- C01 for sources without an empty table that spans lines (unless its closing brace starts a line) and without a
half-open long comment at the end: the source is returned unchanged, or with one newline behind a one-line comment or
shebang line at its end. The full claim is false, see the two theorems below. -/
theorem C01_unchanged_partial (c : Config) (hc : NoOptions c) (hl : c.lineRange = none) (src : Str) (hs : Accepted src)
    (ht : ¬ OpenEmptyTable src) (he : ¬ EndsInHalfOpener src) :
    format c src = .ok src ∨ (EndsInComment src ∧ format c src = .ok (src ++ ['\n'])) := by
  obtain ⟨out, hf, hk⟩ := C01_no_options_output c hc hl src hs
  rcases kept_end hk ht with rfl | ⟨rfl, h⟩ | h
  · exact .inl hf
  · exact .inr ⟨h, hf⟩
  · exact absurd h he

theorem noOptions_default : NoOptions Config.default := ⟨fun _ => rfl, fun _ => rfl, fun _ => rfl⟩

/-- C01 does not hold in general: an empty table that spans lines is rewritten although no option asks for it. -/
theorem C01_empty_table_is_changed : format Config.default L!"t = {\n  }" = .ok L!"t = {\n}" := by decide +kernel

/-- C01 does not hold in general: so are the comments in it moved to lines of their own. -/
theorem C01_empty_table_comment_is_changed :
    format Config.default L!"t = { --[[a\nb]] }" = .ok L!"t = { --[[a\nb]]\n}" := by decide +kernel

/-- C01 does not hold in general: a half-open long comment at the end loses its text. -/
theorem C01_half_comment_is_lost : format Config.default L!"t = 1 --[==" = .ok L!"t = 1 --\n" := by decide +kernel

/-! ### C28 -/

theorem slice_newline {src : Str} {a b : Nat} (h : b ≤ src.length) : ((src ++ ['\n']).drop a).take (b - a) = (src.drop a).take (b - a) := by
  by_cases ha : a ≤ src.length
  · rw [List.drop_append_of_le_length ha, List.take_append_of_le_length]
    simp; omega
  · rw [show b - a = 0 by omega]
    simp

theorem tilesR_le : ∀ {ts : List TokL} {s : Str} {a : Nat}, TilesR s a ts → ∀ t ∈ ts, t.l ≤ a + s.length
  | [], _, _, h => h.elim
  | t :: ts, s, a, h => by
    intro x hx
    rcases h with ⟨_, rfl, _, h4, _⟩ | ⟨g, u, s', _, rfl, _, h4, h5, _, _, h8⟩
    · simp at hx; subst hx; omega
    · rcases List.mem_cons.mp hx with rfl | hx
      · simp; omega
      · have := tilesR_le h8 x hx
        simp; omega

theorem half_last {s : Str} : ¬ EndsInHalfOpener (s ++ ['\n']) := by
  rintro ⟨a, n, h⟩
  have := congrArg List.getLast? h
  simp only [List.getLast?_append, Option.some_or, List.getLast?_cons, List.getLast?_replicate] at this
  split at this <;> simp at this

theorem comment_last_nl {s : Str} : ¬ EndsInComment (s ++ ['\n']) := by
  rintro ⟨a, t, h, h1, h2⟩
  have hne : t ≠ [] := by rintro rfl; rcases h2 with h2 | h2 <;> cases h2
  have := congrArg List.getLast? h
  rw [List.getLast?_append, List.getLast?_append, List.getLast?_eq_some_getLast hne] at this
  simp only [List.getLast?_singleton, Option.some_or, Option.some.injEq] at this
  exact h1 (this ▸ List.getLast_mem hne)

/-- A newline behind an accepted source changes nothing for the lexer and parser. -/
theorem accepted_newline {src : Str} (hs : Accepted src) :
    Accepted (src ++ ['\n']) ∧ (¬ OpenEmptyTable src → ¬ OpenEmptyTable (src ++ ['\n'])) := by
  obtain ⟨toks, sb, b, h1, h2⟩ := hs
  have hT := lexFrom_tilesR 0 src _ h1
  obtain ⟨ts, e, rfl, he⟩ : ∃ ts e, toks = ts ++ [e] ∧ e.tok = .eof := by
    have h3 := h2.2
    rw [chunkTokens] at h3
    obtain ⟨us, vs, rfl, _, h5⟩ := List.map_eq_append_iff.mp h3
    obtain ⟨e, rfl, h6⟩ : ∃ e, vs = [e] ∧ e.tok = .eof := by
      cases vs with
      | nil => simp at h5
      | cons v vs => cases vs <;> simp at h5; exact ⟨v, rfl, h5⟩
    exact ⟨us, e, rfl, h6⟩
  obtain ⟨ts', e', k1, k2, k3⟩ := lexFrom_newline he hT
  have hmap : (ts' ++ [e']).map TokL.tok = (ts ++ [e]).map TokL.tok := by
    rcases k3 with rfl | ⟨xs, y, y', x, rfl, rfl, k4, k5⟩
    · simp [k1, he]
    · simp [k1, he, k4, k5]
  refine ⟨⟨_, sb, b, k2, by rw [hmap]; exact h2⟩, ?_⟩
  rintro hn ⟨xs, t, u, ys, q1, q2, q3, q4⟩
  have hk2 : lexLua (src ++ ['\n']) = some (ts' ++ [e']) := k2
  rw [hk2] at q1
  injection q1 with q1
  have hend : ∃ zs, ts' = xs ++ t :: u :: zs := by
    cases hz : ys.reverse with
    | nil =>
      rw [List.reverse_eq_nil_iff] at hz
      subst hz
      rw [show xs ++ [t, u] = (xs ++ [t]) ++ [u] by simp] at q1
      have := (List.append_inj' q1 rfl).2
      simp at this
      rw [← this, k1] at q3
      cases q3
    | cons z zs =>
      have : ys = zs.reverse ++ [z] := by rw [← List.reverse_reverse ys, hz]; simp
      subst this
      refine ⟨zs.reverse, ?_⟩
      rw [show xs ++ t :: u :: (zs.reverse ++ [z]) = (xs ++ t :: u :: zs.reverse) ++ [z] by simp] at q1
      exact (List.append_inj' q1 rfl).1
  obtain ⟨zs, hzs⟩ := hend
  have hold : ∃ zs', ts = xs ++ t :: u :: zs' := by
    rcases k3 with rfl | ⟨xs2, y, y', x, rfl, rfl, k4, k5⟩
    · exact ⟨zs, hzs⟩
    · cases hz : zs.reverse with
      | nil =>
        rw [List.reverse_eq_nil_iff] at hz
        subst hz
        rw [show xs ++ [t, u] = (xs ++ [t]) ++ [u] by simp] at hzs
        have := (List.append_inj' hzs rfl).2
        simp at this
        rw [← this, k5] at q3
        cases q3
      | cons z zs2 =>
        have : zs = zs2.reverse ++ [z] := by rw [← List.reverse_reverse zs, hz]; simp
        subst this
        rw [show xs ++ t :: u :: (zs2.reverse ++ [z]) = (xs ++ t :: u :: zs2.reverse) ++ [z] by simp] at hzs
        refine ⟨zs2.reverse ++ [y], ?_⟩
        rw [(List.append_inj' hzs rfl).1]
        simp
  obtain ⟨zs', hold⟩ := hold
  have hle : u.l ≤ src.length := by
    have := tilesR_le hT u (by rw [hold]; simp)
    omega
  refine hn ⟨xs, t, u, zs' ++ [e], by rw [h1, hold]; simp, q2, q3, ?_⟩
  rw [slice_newline hle] at q4
  exact q4

/-- C28 for configurations without options and the sources of `C01_unchanged_partial`. -/
theorem C28_no_options_idempotent_partial (c : Config) (hc : NoOptions c) (hl : c.lineRange = none) (src out : Str)
    (hf : format c src = .ok out) (ht : ¬ OpenEmptyTable src) (he : ¬ EndsInHalfOpener src) :
    format c out = .ok out := by
  have hs : Accepted src := by
    apply Classical.byContradiction
    intro h
    rw [← C38_parsing_error_iff_rejected c] at h
    rw [h] at hf
    cases hf
  rcases C01_unchanged_partial c hc hl src hs ht he with h | ⟨_, h⟩
  · rw [hf] at h
    cases h
    exact hf
  · rw [hf] at h
    cases h
    obtain ⟨h1, h2⟩ := accepted_newline hs
    rcases C01_unchanged_partial c hc hl _ h1 (h2 ht) half_last with h | ⟨h, _⟩
    · exact h
    · exact absurd h comment_last_nl

/-- C28 does not hold in general: with one field per line and an indentation string of four spaces, every run adds
the spaces of the old indentation behind the opening brace. -/
theorem C28_table_fields_not_idempotent :
    let c := cfg [(L!"remove_single_newlines", L!"true"), (L!"indentation_string", L!"    "), (L!"newline_format_table_field", L!"1")]
    format c L!"t = {a=3}" = .ok L!"t = {\n    a=3}" ∧
      format c L!"t = {\n    a=3}" = .ok L!"t = {   \n    a=3}" := by decide +kernel

/-- C28 does not hold in general: with call chains split over lines, the second run adds a line of spaces. -/
theorem C28_call_chain_not_idempotent :
    let c := cfg [(L!"indentation_string", L!"    "), (L!"newline_format_var_suffix", L!"1"), (L!"indent_var_suffix", L!"true")]
    format c L!"a.b()" = .ok L!"a\n    .b()" ∧
      format c L!"a\n    .b()" = .ok L!"a\n   \n    .b()" := by decide +kernel

/-- A test for `OpenEmptyTable`, used in the examples only. -/
def openPair (src : Str) : List TokL → Bool
  | t :: u :: ts => (t.tok == .openCurly && u.tok == .closeCurly && ((src.drop t.r).take (u.l - t.r)).contains '\n' &&
      ((src.drop t.r).take (u.l - t.r)).getLast? != some '\n') || openPair src (u :: ts)
  | _ => false

theorem openPair_spec {src : Str} {t u : TokL} {ys : List TokL} (ht : t.tok = .openCurly) (hu : u.tok = .closeCurly)
    (h1 : '\n' ∈ (src.drop t.r).take (u.l - t.r)) (h2 : ((src.drop t.r).take (u.l - t.r)).getLast? ≠ some '\n') :
    ∀ xs, openPair src (xs ++ t :: u :: ys) = true
  | [] => by
    simp only [List.nil_append, openPair, Bool.or_eq_true, Bool.and_eq_true, bne_iff_ne, ne_eq, h2, not_false_eq_true, ht, hu,
      List.contains_iff_mem, h1]
    exact .inl ⟨⟨⟨rfl, rfl⟩, trivial⟩, trivial⟩
  | [x] => by
    have := openPair_spec ht hu h1 h2 (ys := ys) []
    simp only [List.nil_append] at this
    show (_ || openPair src (_ :: _)) = true
    rw [this, Bool.or_true]
  | x :: y :: xs => by
    have := openPair_spec ht hu h1 h2 (ys := ys) (y :: xs)
    simp only [List.cons_append] at this ⊢
    show (_ || openPair src (_ :: _)) = true
    rw [this, Bool.or_true]

theorem not_openEmptyTable {src : Str} (h : (lexLua src).any (openPair src) = false) : ¬ OpenEmptyTable src := by
  rintro ⟨xs, t, u, ys, h1, h2, h3, h4, h5⟩
  rw [h1, Option.any_some, openPair_spec h2 h3 h4 h5] at h
  cases h

/-- The hypotheses of the theorems above for a program with a shebang line, comments of both kinds, an empty table
that spans lines and a comment at the end. -/
def Spec.plainSrc : Str := L!"#!lua\nlocal t = {\n} --[[x]] if t then\n\treturn  'a' .. \"b\" --y\nend --z"

example : Accepted plainSrc ∧ ¬ OpenEmptyTable plainSrc ∧ ¬ EndsInHalfOpener plainSrc ∧
    format Config.default plainSrc = .ok (plainSrc ++ ['\n']) := by
  have hf : format Config.default plainSrc = .ok (plainSrc ++ ['\n']) := by decide +kernel
  refine ⟨?_, ?_, ?_, hf⟩
  · apply Classical.byContradiction
    intro h
    rw [← C38_parsing_error_iff_rejected Config.default, hf] at h
    cases h
  · exact not_openEmptyTable (by decide +kernel)
  · rintro ⟨a, n, h⟩
    have := congrArg List.getLast? h
    simp only [List.getLast?_append, List.getLast?_cons, List.getLast?_replicate] at this
    split at this <;> simp [plainSrc] at this

end Luafmt
