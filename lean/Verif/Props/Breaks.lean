import Verif.Props.Lines
import Verif.Proofs.AskLines

/-
C52: lines begin only where an option asks for them. It is the converse of C40.
-/
namespace Luafmt
open Spec

/-- C52: if the line breaks and the comments of the source are removed, a token of the output begins a line only at a place of
its syntax tree where an option asks for a line break. Missing from the full claim: the separators `,` and `;`, the
opening braces if `write_newline_at_multiline_table` is set, programs with a `#!` line, line ranges, and configurations and
programs whose tokens may be joined, as for C03. -/
theorem C52_only_asked_lines_partial (c : Config) (src out : Str) (toks : List Token) (hh : BlankHints c) (ho : OnlyAsked c)
    (hl : c.lineRange = none) (hf : format c src = .ok out) (ht : toksOf src = some (toks ++ [.eof]))
    (hk : KeepsApart c toks) (hs : ∀ x, .sheBang x ∉ toks) :
    ∃ tree' ts', parseLua out = some tree' ∧ lexLua out = some ts' ∧
      ∀ t ∈ ts', t.tok ∉ [.eof, .comma, .semicolon] →
        (c.bool .writeNewlineAtMultilineTable = some true → t.tok ≠ .openCurly) →
        BeginsLine out t.l → Asked c tree' t.l := by
  obtain ⟨tree', ts', h1, h2, h3⟩ := format_breaks hh ⟨fun ⟨o, h, h'⟩ => ho.comments o h h', fun h => h ho.all, fun h => h ho.com,
    fun o h s hs hn => ho.hint o h s hs hn⟩ hl hf ht hk hs
  refine ⟨tree', ts', h1, h2, fun t ht hn hb hl => ?_⟩
  simp only [List.mem_cons, List.not_mem_nil, or_false, not_or] at hn
  refine (h3 t ht hn.1 ?_ hl).resolve_right fun h => hb h.1 h.2
  cases h : t.tok <;> first | rfl | exact absurd h hn.2.1 | exact absurd h hn.2.2

/-! ### The hypotheses hold for a concrete run -/

/-- A configuration that breaks statements and conditionals but nothing else. -/
def breaking : Config := cfg [(L!"remove_all_newlines", L!"true"), (L!"remove_comments", L!"true"),
  (L!"newline_format_statement", L!"1"), (L!"newline_format_if", L!"1"), (L!"replace_zero_spaces_with_hint", L!"true")]

def breakingSrc : Str :=
  L!"local t={1;\nx=2} function f(a)\nif a then -- c\n b() elseif d\nthen g()\n else return 1 end end while x\n do\n y() end return\nt\n"

example : ∃ out toks, format breaking breakingSrc = .ok out ∧ breaking.lineRange = none ∧ BlankHints breaking ∧ OnlyAsked breaking ∧
    toksOf breakingSrc = some (toks ++ [.eof]) ∧ KeepsApart breaking toks ∧ ∀ x, .sheBang x ∉ toks := by
  refine ⟨L!"local t = {1; x = 2}\nfunction f(a) if a then\nb()\nelseif d then\ng()\nelse\nreturn 1\nend end\nwhile x do y() end\nreturn t",
    body breakingSrc, by decide +kernel, rfl, by constructor <;> simp +decide [breaking], ?_, by decide +kernel, ?_, ?_⟩
  · exact ⟨by decide +kernel, by decide +kernel, by decide +kernel, by simp +decide [breaking]⟩
  · exact keepsApart_of (by decide +kernel) (.inr ⟨by decide +kernel, .inl ⟨by decide +kernel, rfl⟩, by decide +kernel⟩)
  · have : (body breakingSrc).all (fun t => match t with | .sheBang _ => false | _ => true) = true := by decide +kernel
    intro x hx
    exact Bool.false_ne_true (List.all_eq_true.1 this _ hx)

/-- Line breaks are asked for in `if` statements with `newline_format_if`, -/
example : Asked breaking flatIf 10 :=
  ⟨_, _, _, _, ⟨9, 10⟩, .refl, rfl, .inl ⟨2, rfl, .inl ⟨_, _, 1, rfl, by decide +kernel, by decide⟩⟩⟩

theorem inside_flat {m : Node} (h : Inside flatIf m) : m = flatIf ∨ m = .mk (.name L!"a") ⟨3, 4⟩ [] [] ∨ m = .mk .statementList ⟨10, 13⟩ [⟨10, 10⟩] [] := by
  cases h with
  | refl => exact .inl rfl
  | kid hm h =>
    simp only [List.mem_cons, List.not_mem_nil, or_false] at hm
    rcases hm with rfl | rfl
    · cases h with
      | refl => exact .inr (.inl rfl)
      | kid hm _ => cases hm
    · cases h with
      | refl => exact .inr (.inr rfl)
      | kid hm _ => cases hm

/-- but not by the option for statements: a body on its own line is excluded then. -/
example : ¬ Asked (cfg [(L!"newline_format_statement", L!"1")]) flatIf 10 ∧ BeginsLine L!"if a then\nb()\nend" 10 := by
  refine ⟨?_, L!"if a then", [], by decide, by simp⟩
  rintro ⟨tag, span, locs, kids, loc, h, _, h'⟩
  rcases inside_flat h with h | h | h <;> cases h
  · rcases h' with ⟨g, _, h | h | h | h⟩ | ⟨i, item, _, _, h⟩
    · obtain ⟨o, ps, d, h1, h2, _⟩ := h
      cases h1
      exact absurd h2 (by decide +kernel)
    · cases h.1
    · obtain ⟨⟨_, _, h⟩, _⟩ := h
      cases h
    · obtain ⟨⟨_, h⟩, _⟩ := h
      cases h
    · exact h
  · rcases h' with ⟨g, h, _⟩ | ⟨i, item, h, _⟩ <;> cases h
  · rcases h' with ⟨g, _, h | h | h | h⟩ | ⟨i, item, h, _⟩
    · obtain ⟨o, ps, d, h1, h2, _⟩ := h
      cases h1
    · cases h.1
    · obtain ⟨⟨_, _, h⟩, _⟩ := h
      cases h
    · obtain ⟨⟨_, h⟩, _⟩ := h
      cases h
    · cases h

/-! ### The hypotheses are needed -/

/-- Without `remove_all_newlines` the line breaks of the source are kept, -/
theorem C52_fails_for_kept_lines : format (cfg [(L!"remove_comments", L!"true")]) L!"a\n= 1" = .ok L!"a\n= 1" := by decide +kernel

/-- without `remove_comments` those that end comments, -/
theorem C52_fails_for_comments : format (cfg [(L!"remove_all_newlines", L!"true")]) L!"a --c\n= 1" = .ok L!"a --c\n= 1" := by
  decide +kernel

/-- and the options for comments write line breaks even for comments that are removed. -/
theorem C52_fails_for_removed_comments : format (cfg [(L!"remove_all_newlines", L!"true"), (L!"remove_comments", L!"true"),
    (L!"newline_format_first_oneline_comment", L!"1")]) L!"a = 1 -- c\n + b" = .ok L!"a = 1\n + b" := by decide +kernel

end Luafmt
