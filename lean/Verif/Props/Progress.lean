import Verif.Proofs.LiveWrite
import Verif.Props.Output

/-
C06, C07: which results a formatting run can have.
-/
namespace Luafmt
open Spec

/-! ### C07 -/

/-- C07. A source that the parser accepts is never answered with an error, whatever the configuration and
the line range. -/
theorem C07_parsed_program_is_formatted (c : Config) (src : Str) (tree : Node) (h : parseLua src = some tree) :
    ∀ e, format c src ≠ .error e := by
  intro e he
  unfold format at he
  simp only [h] at he
  have hl := formatTree_live (S := False) (c := c) h False.elim False.elim
  cases hf : formatTree c src tree with
  | ok s => simp only [hf] at he; cases he
  | err => rw [hf] at hl; exact hl
  | panic => simp only [hf] at he; cases he

/-- C07. Every gap between two tokens of a text that the lexer accepts is accepted by the comment parser. -/
theorem C07_gaps_are_read_back (g : Str) (h : FinalGap g) : (parseComment g).isSome = true := by
  obtain ⟨ts, h1, _⟩ := clex_gap h
  unfold parseComment
  rw [h1]
  cases ts <;> rfl

/-- A source with comments of all kinds and a configuration that rewrites it: no error. -/
example : (parseLua rewritingSrc).isSome = true ∧ FinalGap L!" --[==[ two ]==] --x" := by
  refine ⟨by decide +kernel, .inr ⟨L!" --[==[ two ]==] ", L!"x", rfl, ?_, ?_⟩⟩
  · have h : Gap L!"--[==[ two ]==] " :=
      .long 2 L!" two " L!" " (by unfold LongBody; simp +decide [LongBody]) (.blank _ _ (.inl rfl) .nil)
    exact .blank _ _ (.inl rfl) h
  · exact ⟨by decide, fun n h => by simp [opener] at h⟩

/-! ### C06 -/

/-- A text of one-byte characters only, that is, of ASCII characters. -/
def Spec.Ascii (s : Str) : Prop := ∀ ch ∈ s, ch.toNat < 128

/-- What a configuration has to satisfy for the formatter not to panic: no string option ends in a
character outside ASCII, the options that measure lines come with `max_width`, and there is no line range
or the source is in ASCII. -/
structure Spec.Harmless (c : Config) (src : Str) : Prop where
  strings : ∀ o s ch, c.str o = some s → s.getLast? = some ch → ch.toNat < 128
  op : (c.num .newlineFormatBinaryOp = some 1 ∨ c.num .newlineFormatBinaryOp = some 2) →
    c.bool .forceSingleLineBinaryOp = some true → c.num .maxWidth ≠ none
  explist : (c.num .newlineFormatExpList = some 1 ∨ c.num .newlineFormatExpListFirst = some 1) →
    c.bool .forceSingleLineExpList = some true → c.num .maxWidth ≠ none
  suffix : c.num .newlineFormatVarSuffix ≠ none →
    c.bool .forceSingleLineVarSuffix = some true → c.num .maxWidth ≠ none
  field : c.num .newlineFormatTableField ≠ none → c.bool .forceSingleLineIvTableField = some true →
    c.bool .forceSingleLineTable = some true → c.num .maxWidth ≠ none
  range : c.lineRange = none ∨ Ascii src

theorem isSome_of_ne {α : Type} {o : Option α} (h : o ≠ none) : o.isSome = true := by
  cases o with
  | none => exact absurd rfl h
  | some _ => rfl

theorem ne_of_isSome {α : Type} {o : Option α} (h : o.isSome = true) : o ≠ none := by
  cases o with
  | none => cases h
  | some _ => exact fun h => nomatch h

theorem harmless_safe {c : Config} {src : Str} (h : Harmless c src) : CfgSafe c ∧ (c.lineRange = none ∨ OneByte src) := by
  refine ⟨⟨fun o s hs ch hc => low_size (h.strings o s ch hs hc), ⟨?_, ?_, ?_, ?_⟩⟩, ?_⟩
  · exact fun h1 h2 => isSome_of_ne (h.op h1 h2)
  · exact fun h1 h2 => isSome_of_ne (h.explist h1 h2)
  · exact fun h1 h2 => isSome_of_ne (h.suffix (ne_of_isSome h1) h2)
  · exact fun h1 h2 h3 => isSome_of_ne (h.field (ne_of_isSome h1) h2 h3)
  · rcases h.range with h | h
    · exact .inl h
    · exact .inr fun ch hc => low_size (h ch hc)

/-- C06 (partial: for harmless configurations; the full claim is false, see below). Formatting does not
panic. -/
theorem C06_formatter_does_not_panic_partial (c : Config) (src : Str) (h : Harmless c src) : format c src ≠ .panic := by
  intro he
  unfold format at he
  cases ht : parseLua src with
  | none => rw [ht] at he; cases he
  | some tree =>
    simp only [ht] at he
    obtain ⟨h1, h2⟩ := harmless_safe h
    have hl := formatTree_live (S := True) (c := c) ht (fun _ => h1) (fun _ => h2)
    cases hf : formatTree c src tree with
    | ok s => simp only [hf] at he; cases he
    | err => simp only [hf] at he; cases he
    | panic => rw [hf] at hl; exact hl trivial

/-- C06. Without any option, formatting never panics. -/
theorem C06_no_options_no_panic (src : Str) : format Config.default src ≠ .panic :=
  C06_formatter_does_not_panic_partial _ _
    ⟨fun _ _ _ h => (nomatch h), fun h _ => h.elim (nomatch ·) (nomatch ·), fun h _ => h.elim (nomatch ·) (nomatch ·),
      fun h _ => absurd rfl h, fun h _ _ => absurd rfl h, .inl rfl⟩

/-- C06, C07. A source that the parser accepts is formatted if the configuration is harmless. -/
theorem C06_harmless_run_has_output (c : Config) (src : Str) (tree : Node) (hp : parseLua src = some tree) (h : Harmless c src) :
    ∃ out, format c src = .ok out := by
  cases hf : format c src with
  | ok out => exact ⟨out, rfl⟩
  | error e => exact absurd hf (C07_parsed_program_is_formatted c src tree hp e)
  | panic => exact absurd hf (C06_formatter_does_not_panic_partial c src h)

theorem harmless_of {c : Config} {src : Str} (hs : ∀ o, ∀ ch ∈ (c.str o).getD [], ch.toNat < 128) (hm : c.num .maxWidth ≠ none)
    (hr : c.lineRange = none ∨ Ascii src) : Harmless c src := by
  refine ⟨fun o s ch h1 h2 => hs o ch ?_, fun _ _ => hm, fun _ _ => hm, fun _ _ => hm, fun _ _ _ => hm, hr⟩
  rw [h1]
  exact List.mem_of_getLast? h2

/-- A configuration that measures lines, with a line range. -/
def Spec.measuring : Config :=
  cfg [(L!"max_width", L!"20"), (L!"newline_format_binary_op", L!"1"), (L!"force_single_line_binary_op", L!"true"),
    (L!"indentation_string", L!"  "), (L!"line_range", L!"1:1")]

/-- It is harmless, and the run has an output that differs from the source. -/
example : Harmless measuring L!"a = {b + cccccccccccccccccc,}\nd =   1 -- x" ∧
    format measuring L!"a = {b + cccccccccccccccccc,}\nd =   1 -- x" = .ok L!"a = {b\n    + cccccccccccccccccc,\n}\nd =   1 -- x" := by
  refine ⟨harmless_of (by intro o; cases o <;> decide +kernel) (by decide +kernel) (.inr (by unfold Ascii; decide +kernel)), by decide +kernel⟩

/-- The full claim C06 is false: the options that measure lines panic without `max_width`. -/
theorem C06_panic_without_max_width : format (cfg [(L!"newline_format_binary_op", L!"1"), (L!"force_single_line_binary_op", L!"true")])
    L!"a = b + c" = .panic := by decide +kernel

/-- The same for the other options that measure lines. -/
theorem C06_panic_without_max_width_lists :
    format (cfg [(L!"newline_format_exp_list", L!"1"), (L!"force_single_line_exp_list", L!"true")]) L!"f(a, b)" = .panic ∧
    format (cfg [(L!"newline_format_exp_list_first", L!"1"), (L!"force_single_line_exp_list", L!"true")]) L!"f(a)" = .panic ∧
    format (cfg [(L!"newline_format_var_suffix", L!"1"), (L!"force_single_line_var_suffix", L!"true")]) L!"a.b()" = .panic ∧
    format (cfg [(L!"newline_format_table_field", L!"1"), (L!"force_single_line_iv_table_field", L!"true"),
      (L!"force_single_line_table", L!"true")]) L!"a = {1, 2}" = .panic := by decide +kernel

/-- The full claim C06 is false: a hint that ends in a character of several bytes. -/
theorem C06_panic_with_unicode_option : format (cfg [(L!"field_separator", L!"é")]) L!"a = {1, 2}" = .panic := by
  decide +kernel

/-- The full claim C06 is false: a line range in a source with characters of several bytes. -/
theorem C06_panic_with_line_range : format (cfg [(L!"line_range", L!"2:2")]) L!"--€€€€€€\nb=1--[[x]] --[[y]]" = .panic := by
  decide +kernel

end Luafmt
