import Verif.Proofs.Comment
import Verif.Spec.Elements
import Verif.Model.CommentLexer

/-
What the comment lexer reads from a gap.
-/
namespace Luafmt
open Spec

/-- The blanks that the comment lexer skips. -/
def IsSpace (ch : Char) : Prop := ch = ' ' ∨ ch = '\r' ∨ ch = '\t'

/-- The text of a comment token (`rest` is the text behind it). -/
def CText : CTok → Str → Str → Prop
  | .newLine, u, _ => u = ['\n']
  | .oneLine s, u, rest => (LineText s ∧ u = '-' :: '-' :: (s ++ ['\n'])) ∨
      (rest = [] ∧ ∃ t, LineText t ∧ u = '-' :: '-' :: t ∧ s = if (∃ n, t = '[' :: eqs n) then [] else t)
  | .multiLine n s, u, _ => LongBody n false s ∧ u = '-' :: '-' :: (opener n ++ (s ++ closer n))

/-- The comment tokens of a gap tile it. -/
inductive CTiles : Nat → Str → List CTokL → Prop
  | nil {p : Nat} {s : Str} : (∀ ch ∈ s, IsSpace ch) → CTiles p s []
  | cons {p : Nat} {b u s : Str} {t : CTokL} {ts : List CTokL} : (∀ ch ∈ b, IsSpace ch) → CText t.tok u s →
      t.l = p + b.length → t.r = t.l + u.length → CTiles t.r s ts → CTiles p (b ++ (u ++ s)) (t :: ts)

theorem CTiles.space {p : Nat} {s : Str} {ts : List CTokL} {ch : Char} (hc : IsSpace ch)
    (h : CTiles (p + 1) s ts) : CTiles p (ch :: s) ts := by
  cases h with
  | nil hs =>
    refine .nil ?_
    intro x hx
    rcases List.mem_cons.mp hx with rfl | hx
    · exact hc
    · exact hs x hx
  | @cons _ b u s t ts hb hu hl hr ht =>
    rw [show ch :: (b ++ (u ++ s)) = (ch :: b) ++ (u ++ s) from rfl]
    refine .cons ?_ hu (by simp [hl]; omega) hr ht
    intro x hx
    rcases List.mem_cons.mp hx with rfl | hx
    · exact hc
    · exact hb x hx

/-- The text of a comment token that is complete. -/
def CWhole : CTok → Str → Prop
  | .newLine, u => u = ['\n']
  | .oneLine s, u => u = '-' :: '-' :: (s ++ ['\n'])
  | .multiLine n s, u => u = '-' :: '-' :: (opener n ++ (s ++ closer n))

/-- The comment tokens of a gap tile it and are complete. -/
inductive CWholes : Nat → Str → List CTokL → Prop
  | nil {p : Nat} {s : Str} : CWholes p s []
  | cons {p : Nat} {b u s : Str} {t : CTokL} {ts : List CTokL} : CWhole t.tok u →
      t.l = p + b.length → t.r = t.l + u.length → CWholes t.r s ts → CWholes p (b ++ (u ++ s)) (t :: ts)

theorem CWholes.space {p : Nat} {s : Str} {ts : List CTokL} (ch : Char)
    (h : CWholes (p + 1) s ts) : CWholes p (ch :: s) ts := by
  cases h with
  | nil => exact .nil
  | @cons _ b u s t ts h1 h2 h3 h4 =>
    have := CWholes.cons (p := p) (b := ch :: b) h1 (by simp; omega) h3 h4
    simpa using this

/-- The comments of a comment token. -/
def celem : CTok → List Elem
  | .newLine => []
  | .oneLine s => [.line s]
  | .multiLine n s => [.long n s]

/-- The comments of comment tokens. -/
def celems (ts : List CTokL) : List Elem := ts.flatMap fun t => celem t.tok

theorem celems_append (a b : List CTokL) : celems (a ++ b) = celems a ++ celems b := by
  simp [celems]

/-- The text `s` is a gap with the comments `es`. -/
def GapText (s : Str) (es : List Elem) : Prop := Text es s ∧ ∀ e ∈ es, e.isComment = true

/-- The text `s` is the last gap of a source, with the comments `es`. -/
def FinalText (s : Str) (es : List Elem) : Prop :=
  (Clean s → Text es (s ++ ['\n'])) ∧ ∀ e ∈ es, e.isComment = true

theorem celems_comments (ts : List CTokL) : ∀ e ∈ celems ts, e.isComment = true := by
  intro e he
  simp only [celems, List.mem_flatMap] at he
  obtain ⟨t, _, h⟩ := he
  revert h
  cases t.tok <;> simp [celem] <;> rintro rfl <;> rfl

theorem clexGo_tok {fuel i r : Nat} {t : CTok} {u s : Str} {ts : List CTokL}
    (hst : clexStep ⟨i, u ++ s⟩ = .tok i t (i + u.length) ⟨r, s⟩)
    (hr : r = i + u.length) (hu : CText t u s) (hts : clexGo fuel ⟨r, s⟩ = some ts) (hc : CTiles r s ts) :
    ∃ ts', clexGo (fuel + 1) ⟨i, u ++ s⟩ = some ts' ∧ CTiles i (u ++ s) ts' ∧ celems ts' = celem t ++ celems ts ∧
      (CWhole t u → CWholes r s ts → CWholes i (u ++ s) ts') := by
  refine ⟨⟨i, t, i + u.length⟩ :: ts, ?_, ?_, rfl, ?_⟩
  · simp only [clexGo, hst, hts, Option.map_some]
  · have := CTiles.cons (p := i) (b := []) (u := u) (s := s) (t := ⟨i, t, i + u.length⟩) (ts := ts)
      (by simp) hu (by simp) rfl (by simp only; rw [← hr]; exact hc)
    simpa using this
  · intro hw hws
    have := CWholes.cons (p := i) (b := []) (u := u) (s := s) (t := ⟨i, t, i + u.length⟩) (ts := ts)
      hw (by simp) rfl (by simp only; rw [← hr]; exact hws)
    simpa using this

theorem clexGo_gap {g : Str} (hg : Gap g) : ∀ (i fuel : Nat) (tail : Str),
    (tail = [] ∨ ∃ t, tail = '-' :: '-' :: t ∧ LineText t) → (g ++ tail).length < fuel →
    ∃ ts, clexGo fuel ⟨i, g ++ tail⟩ = some ts ∧ CTiles i (g ++ tail) ts ∧
      (tail = [] → Text (celems ts) g ∧ CWholes i g ts) ∧ (Clean tail → Text (celems ts) (g ++ (tail ++ ['\n']))) := by
  induction hg with
  | nil =>
    intro i fuel tail ht hf
    obtain ⟨f, rfl⟩ : ∃ f, fuel = f + 1 := ⟨fuel - 1, by omega⟩
    rcases ht with rfl | ⟨t, rfl, hl⟩
    · exact ⟨[], by simp [clexGo, clexStep], .nil (by simp), fun _ => ⟨.nil, .nil⟩, fun _ => .blank (.inr (.inl rfl)) .nil⟩
    · simp only [List.nil_append] at hf ⊢
      have hends := getCommentEnds_eof (i + 2) t hl
      obtain ⟨ts, h1, h2, h3, _⟩ := clexGo_tok (fuel := f) (i := i) (r := i + 2 + t.length)
        (t := .oneLine (if (∃ n, t = '[' :: eqs n) then [] else t)) (u := '-' :: '-' :: t) (s := []) (ts := [])
        (by simp [clexStep, Chars.advance, hends]; omega) (by simp; omega)
        (.inr ⟨rfl, t, hl, rfl, rfl⟩)
        (by
          obtain ⟨f', rfl⟩ : ∃ f', f = f' + 1 := ⟨f - 1, by simp at hf; omega⟩
          simp [clexGo, clexStep]) (.nil (by simp))
      refine ⟨ts, by simpa using h1, by simpa using h2, fun h => (by cases h), ?_⟩
      intro hcl
      have hno : ¬ ∃ n, t = '[' :: eqs n := by
        rintro ⟨n, rfl⟩
        exact hcl ⟨n, [], rfl⟩
      rw [h3]
      simp only [if_neg hno, celem]
      have := Text.elem (e := .line t) hl .nil
      simpa [Elem.text, celems] using this
  | blank ch g hc hg ih =>
    intro i fuel tail ht hf
    obtain ⟨f, rfl⟩ : ∃ f, fuel = f + 1 := ⟨fuel - 1, by omega⟩
    have hlen : (g ++ tail).length < f := by simp at hf ⊢; omega
    obtain ⟨ts, h1, h2, h3, h4⟩ := ih (i + 1) f tail ht hlen
    by_cases hn : ch = '\n'
    · subst hn
      obtain ⟨ts', k1, k2, k3, k4⟩ := clexGo_tok (fuel := f) (i := i) (r := i + 1) (t := .newLine) (u := ['\n'])
        (s := g ++ tail) (ts := ts) (by simp [clexStep, Chars.advance]) (by simp) rfl h1 h2
      refine ⟨ts', by simpa using k1, by simpa using k2, ?_, ?_⟩
      · intro he; subst he; rw [k3]; exact ⟨.blank hc (h3 rfl).1, by simpa using k4 rfl (by simpa using (h3 rfl).2)⟩
      · intro he; rw [k3]; exact .blank hc (h4 he)
    · have hsp : IsSpace ch := by
        rcases hc with h | h | h | h
        · exact .inl h
        · exact absurd h hn
        · exact .inr (.inl h)
        · exact .inr (.inr h)
      refine ⟨ts, ?_, h2.space hsp, fun he => ⟨.blank hc (h3 he).1, (h3 he).2.space ch⟩, fun he => .blank hc (h4 he)⟩
      have : clexStep ⟨i, ch :: (g ++ tail)⟩ = .skip ⟨i + 1, g ++ tail⟩ := by
        simp only [clexStep, Chars.advance]
        rw [if_pos (show ch = ' ' ∨ ch = '\r' ∨ ch = '\t' from hsp)]
      simp only [List.cons_append, clexGo, this, h1]
  | line t g hl hg ih =>
    intro i fuel tail ht hf
    obtain ⟨f, rfl⟩ : ∃ f, fuel = f + 1 := ⟨fuel - 1, by omega⟩
    obtain ⟨ts, h1, h2, h3, h4⟩ := ih (i + 2 + t.length + 1) f tail ht (by simp at hf ⊢; omega)
    have hends := getCommentEnds_line (i + 2) t (g ++ tail) hl
    obtain ⟨ts', k1, k2, k3, k4⟩ := clexGo_tok (fuel := f) (i := i) (r := i + 2 + t.length + 1) (t := .oneLine t)
      (u := '-' :: '-' :: (t ++ ['\n'])) (s := g ++ tail) (ts := ts)
      (by simp [clexStep, Chars.advance, hends]; omega) (by simp; omega) (.inl ⟨hl, rfl⟩) h1 h2
    refine ⟨ts', by simpa using k1, by simpa using k2, ?_, ?_⟩
    · intro he
      subst he
      rw [k3]
      have := Text.elem (e := .line t) hl (h3 rfl).1
      exact ⟨by simpa [Elem.text, celem] using this, by simpa using k4 rfl (by simpa using (h3 rfl).2)⟩
    · intro he
      rw [k3]
      have := Text.elem (e := .line t) hl (h4 he)
      simpa [Elem.text, celem] using this
  | long n b g hb hg ih =>
    intro i fuel tail ht hf
    obtain ⟨f, rfl⟩ : ∃ f, fuel = f + 1 := ⟨fuel - 1, by omega⟩
    obtain ⟨ts, h1, h2, h3, h4⟩ := ih (i + 2 + n + 2 + b.length + n + 2) f tail ht (by simp at hf ⊢; omega)
    have hends := getCommentEnds_long (i + 2) n b (g ++ tail) hb
    obtain ⟨ts', k1, k2, k3, k4⟩ := clexGo_tok (fuel := f) (i := i) (r := i + 2 + n + 2 + b.length + n + 2) (t := .multiLine n b)
      (u := '-' :: '-' :: (opener n ++ (b ++ closer n))) (s := g ++ tail) (ts := ts)
      (by
        rw [show ('-' :: '-' :: (opener n ++ (b ++ closer n))) ++ (g ++ tail) =
          '-' :: '-' :: (opener n ++ (b ++ (closer n ++ (g ++ tail)))) by simp]
        simp only [clexStep, Chars.advance, List.head?_cons, if_true, hends]
        rw [if_neg (by decide), if_neg (by decide)]
        simp [opener, closer]
        omega)
      (by simp [opener, closer]; omega) ⟨hb, rfl⟩ h1 h2
    refine ⟨ts', by simpa using k1, by simpa using k2, ?_, ?_⟩
    · intro he
      subst he
      rw [k3]
      have := Text.elem (e := .long n b) hb (h3 rfl).1
      exact ⟨by simpa [Elem.text, celem] using this, by simpa using k4 rfl (by simpa using (h3 rfl).2)⟩
    · intro he
      rw [k3]
      have := Text.elem (e := .long n b) hb (h4 he)
      simpa [Elem.text, celem] using this

/-- A gap is read without error. -/
theorem clex_gap {g : Str} (hg : FinalGap g) : ∃ ts, clex g = some ts ∧ CTiles 0 g ts ∧
    (Gap g → GapText g (celems ts) ∧ CWholes 0 g ts) ∧ FinalText g (celems ts) := by
  have h1 : Gap g → ∃ ts, clex g = some ts ∧ CTiles 0 g ts ∧
      (Gap g → GapText g (celems ts) ∧ CWholes 0 g ts) ∧ FinalText g (celems ts) := by
    intro hg
    obtain ⟨ts, h1, h2, h3, h4⟩ := clexGo_gap hg 0 (g.length + 1) [] (.inl rfl) (by simp)
    refine ⟨ts, by simpa [clex] using h1, by simpa using h2, fun _ => ⟨⟨(h3 rfl).1, celems_comments ts⟩, (h3 rfl).2⟩, ?_, celems_comments ts⟩
    intro _
    refine h4 ?_
    rintro ⟨n, hn⟩
    have := List.IsSuffix.length_le hn
    simp at this
  by_cases hgg : Gap g
  · exact h1 hgg
  · rcases hg with hg | ⟨a, t, rfl, ha, ht⟩
    · exact absurd hg hgg
    · obtain ⟨ts, h1, h2, h3, h4⟩ := clexGo_gap ha 0 ((a ++ '-' :: '-' :: t).length + 1) _ (.inr ⟨t, rfl, ht⟩) (by simp)
      refine ⟨ts, h1, h2, fun h => absurd h hgg, ?_, celems_comments ts⟩
      intro hcl
      rw [List.append_assoc]
      refine h4 ?_
      rintro ⟨n, hn⟩
      exact hcl ⟨n, hn.trans (List.suffix_append a _)⟩

end Luafmt
