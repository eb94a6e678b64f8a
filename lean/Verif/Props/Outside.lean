import Verif.Proofs.Outside
import Verif.Props.Ranges
import Verif.Props.Selection
import Verif.Props.Output

/-
C09: with a line range the rest of the program is copied.

`lineRangeToPosRange src c.lineRange = .ok (some (l, r))` says that the requested lines are the text positions from
`l` to `r`; C10 says which positions these are. The statements are the top-level ones, with those in a group and
with the `return` statement.
-/
namespace Luafmt
open Spec

/-- The line on which position `p` lies. -/
def Spec.lineAt (s : Str) (p : Nat) : Nat := (s.take p).count '\n' + 1

/-- C09. What comes before the end of a statement that ends before the requested lines is copied. What is missing:
the gap between the last statement before the request and the first one in it is formatted. -/
theorem C09_before_partial (c : Config) (src out : Str) (tree s : Node) (l r : Nat) (hp : parseLua src = some tree)
    (hq : lineRangeToPosRange src c.lineRange = .ok (some (l, r))) (hf : format c src = .ok out)
    (hs : s ∈ allStatements tree) (h : s.span.r ≤ l) : src.take s.span.r <+: out :=
  format_before hp hs hq hf (.inr rfl) h _ (tree_inside hp hs none c).basic.2.2 (List.prefix_refl _)

/-- C09. If a statement starts before the requested lines, what comes before it is copied, up to spaces and tabs at
its end. -/
theorem C09_before_start_partial (c : Config) (src out before : Str) (tree s : Node) (l r : Nat)
    (hp : parseLua src = some tree) (hq : lineRangeToPosRange src c.lineRange = .ok (some (l, r)))
    (hf : format c src = .ok out) (hs : s ∈ allStatements tree) (h : s.span.l ≤ l) (hb : before <+: src.take s.span.l)
    (h1 : before.getLast? ≠ some ' ') (h2 : before.getLast? ≠ some '\t') : before <+: out :=
  format_before hp hs hq hf (.inl rfl) h _ ⟨h1, h2⟩ hb

/-- C09. What follows from a statement that starts after the requested lines is copied. What is missing: with
`write_newline_at_eof` the end of the program is changed, and the gap between the last statement in the request and
the first one after it is formatted. -/
theorem C09_after_partial (c : Config) (src out : Str) (tree s : Node) (l r : Nat) (hp : parseLua src = some tree)
    (hq : lineRangeToPosRange src c.lineRange = .ok (some (l, r))) (hf : format c src = .ok out)
    (hn : c.bool .writeNewlineAtEof ≠ some true) (hs : s ∈ allStatements tree) (h : r ≤ s.span.l) :
    src.drop s.span.l <:+ out :=
  format_after hp hs hq hf hn (.inl rfl) h

/-- C09. What follows a statement that ends after the requested lines is copied. -/
theorem C09_after_end_partial (c : Config) (src out : Str) (tree s : Node) (l r : Nat) (hp : parseLua src = some tree)
    (hq : lineRangeToPosRange src c.lineRange = .ok (some (l, r))) (hf : format c src = .ok out)
    (hn : c.bool .writeNewlineAtEof ≠ some true) (hs : s ∈ allStatements tree) (h : r ≤ s.span.r) :
    src.drop s.span.r <:+ out :=
  format_after hp hs hq hf hn (.inr rfl) h

private theorem line_before {src : Str} {a l p : Nat} (hb : BeforeLine src a l) (h : lineAt src p < a) : p ≤ l := by
  unfold lineAt at h
  rcases hb with ⟨rfl, _⟩ | ⟨_, h1, h2⟩
  · omega
  · rcases Nat.lt_or_ge l p with hlt | hge
    · have h3 := count_take_mono src (l + 1) p (by omega)
      have h4 : src.take (l + 1) = src.take l ++ ['\n'] := by rw [List.take_add_one, h1]; rfl
      rw [h4, List.count_append] at h3
      simp at h3
      omega
    · exact hge

private theorem line_after {src : Str} {b r p : Nat} (he : EndsLine src b r) (h : b < lineAt src p) : r ≤ p := by
  unfold lineAt at h
  rcases Nat.lt_or_ge p r with hlt | hge
  · have := he.2
    have := count_take_mono src p r (by omega)
    omega
  · exact hge

/-- C09. The whole statement in lines: if the statement `s` ends before line `a` and the statement `t` starts after
line `b`, then formatting lines `a` to `b` only replaces the text between them. -/
theorem C09_lines_partial (c : Config) (src out : Str) (tree s t : Node) (a b : Nat) (hp : parseLua src = some tree)
    (hr : c.lineRange = some (a, b)) (ha : 1 ≤ a) (hab : a ≤ b) (hb : b ≤ lineCount src) (hf : format c src = .ok out)
    (hn : c.bool .writeNewlineAtEof ≠ some true) (hs : s ∈ allStatements tree) (ht : t ∈ allStatements tree)
    (hsa : lineAt src s.span.r < a) (htb : b < lineAt src t.span.l) :
    ∃ mid, out = src.take s.span.r ++ mid ++ src.drop t.span.l := by
  obtain ⟨l, r, e, h1, h2⟩ := C10_usable_numbers_select_their_lines src a b ha hab hb
  obtain ⟨l', r', e', h3, _⟩ := C10_interval_is_sane src a b
  cases e.symm.trans e'
  rw [← hr] at e
  exact format_both hp hs ht e h3 hf hn (line_before h1 hsa) (.inl rfl) (line_after h2 htb)

/-! ### Cases that meet the hypotheses -/

/-- Options that change every statement, and lines 3 to 3. -/
def Spec.outsideCfg : Config := { cfg [(L!"remove_spaces_between_tokens", L!"true")] with lineRange := some (3, 3) }

/-- A program with four statements; line 3 is the end of the second one. -/
def Spec.outsideSrc : Str := L!"#!lua\nx = 1 a = \n 3 \nb = { 1,\n 4 } c = 3 \n"

example : (parseLua outsideSrc).map (fun t => (allStatements t).map Node.span) =
      some [⟨6, 11⟩, ⟨12, 19⟩, ⟨21, 34⟩, ⟨35, 40⟩] ∧
    lineRangeToPosRange outsideSrc outsideCfg.lineRange = .ok (some (16, 20)) ∧
    format outsideCfg outsideSrc = .ok L!"#!lua\nx = 1 a=\n3\nb = { 1,\n 4 } c = 3 \n" ∧
    outsideCfg.bool .writeNewlineAtEof ≠ some true ∧ lineAt outsideSrc 11 = 2 ∧ lineAt outsideSrc 21 = 4 := by decide +kernel

/-- The theorem says of this program that everything but the second statement is copied. -/
example (out : Str) (h : format outsideCfg outsideSrc = .ok out) :
    ∃ mid, out = L!"#!lua\nx = 1" ++ mid ++ L!"b = { 1,\n 4 } c = 3 \n" := by
  have hm : (parseLua outsideSrc).map (fun t => (allStatements t).map Node.span) =
      some [⟨6, 11⟩, ⟨12, 19⟩, ⟨21, 34⟩, ⟨35, 40⟩] := by decide +kernel
  obtain ⟨tree, hp, hs⟩ := Option.map_eq_some_iff.mp hm
  obtain ⟨s, hsm, hs1⟩ := List.mem_map.mp (show (⟨6, 11⟩ : Loc) ∈ (allStatements tree).map Node.span by rw [hs]; simp)
  obtain ⟨t, htm, ht1⟩ := List.mem_map.mp (show (⟨21, 34⟩ : Loc) ∈ (allStatements tree).map Node.span by rw [hs]; simp)
  have := C09_lines_partial outsideCfg outsideSrc out tree s t 3 3 hp rfl (by omega) (by omega) (by decide +kernel) h
    (by decide +kernel) hsm htm (by rw [hs1]; decide +kernel) (by rw [ht1]; decide +kernel)
  rwa [hs1, ht1] at this

/-! ### The full claim is false -/

/-- The claim for the text before the selected statements: if the statements before `s` end before line `a` and `s`
does not, the text before `s` is copied. -/
def Spec.C09Before : Prop :=
  ∀ (c : Config) (src out : Str) (tree s : Node) (a b : Nat), parseLua src = some tree → c.lineRange = some (a, b) →
    1 ≤ a → a ≤ b → b ≤ lineCount src → format c src = .ok out → s ∈ allStatements tree →
    (∀ t ∈ allStatements tree, t.span.r ≤ s.span.l → lineAt src t.span.r < a) → a ≤ lineAt src s.span.r →
    src.take s.span.l <+: out

/-- Line 2 is selected, and the newline at the end of line 1 is removed. (The program is broken by it.) -/
theorem C09_before_fails : ¬ C09Before := by
  intro h
  have hm : (parseLua L!"a = 1\nb = 2\n").map (fun t => (allStatements t).map Node.span) =
      some [⟨0, 5⟩, ⟨6, 11⟩] := by decide +kernel
  obtain ⟨tree, hp, hs⟩ := Option.map_eq_some_iff.mp hm
  obtain ⟨s, hsm, hs1⟩ := List.mem_map.mp (show (⟨6, 11⟩ : Loc) ∈ (allStatements tree).map Node.span by rw [hs]; simp)
  have := h { cfg [(L!"remove_single_newlines", L!"true")] with lineRange := some (2, 2) } _ L!"a = 1b = 2\n" tree s 2 2 hp rfl
    (by omega) (by omega) (by decide +kernel) (by decide +kernel) hsm (fun t ht hle => by
      have := List.mem_map_of_mem (f := Node.span) ht
      rw [hs] at this
      rw [hs1] at hle
      simp only [List.mem_cons, List.not_mem_nil, or_false] at this
      rcases this with e | e <;> rw [e] at hle ⊢
      · decide +kernel
      · exact absurd hle (by decide)) (by rw [hs1]; decide +kernel)
  rw [hs1] at this
  exact absurd this (by decide +kernel)

/-- The claim for the text after the selected statements. -/
def Spec.C09After : Prop :=
  ∀ (c : Config) (src out : Str) (tree s : Node) (a b : Nat), parseLua src = some tree → c.lineRange = some (a, b) →
    1 ≤ a → a ≤ b → b ≤ lineCount src → format c src = .ok out → s ∈ allStatements tree →
    b < lineAt src s.span.l → src.drop s.span.l <:+ out

/-- Line 1 is selected, and with `write_newline_at_eof` the end of line 2 is changed. -/
theorem C09_after_fails : ¬ C09After := by
  intro h
  have hm : (parseLua L!"a = 1\nb = 2  ").map (fun t => (allStatements t).map Node.span) =
      some [⟨0, 5⟩, ⟨6, 11⟩] := by decide +kernel
  obtain ⟨tree, hp, hs⟩ := Option.map_eq_some_iff.mp hm
  obtain ⟨s, hsm, hs1⟩ := List.mem_map.mp (show (⟨6, 11⟩ : Loc) ∈ (allStatements tree).map Node.span by rw [hs]; simp)
  have := h { cfg [(L!"write_newline_at_eof", L!"true")] with lineRange := some (1, 1) } _ L!"a = 1\nb = 2\n" tree s 1 1 hp rfl
    (by omega) (by omega) (by decide +kernel) (by decide +kernel) hsm (by rw [hs1]; decide +kernel)
  rw [hs1] at this
  exact absurd this (by decide +kernel)

end Luafmt
