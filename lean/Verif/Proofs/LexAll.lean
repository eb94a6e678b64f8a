import Verif.Proofs.Lexer

/-
The whole token stream: gaps and tokens tile the text, and a text woven from gaps and tokens is read
back.
-/
namespace Luafmt
open Spec

/-- One piece of text the lexer skips. -/
inductive SkipPiece : Str → Prop
  | blank (c : Char) : c = ' ' ∨ c = '\n' ∨ c = '\r' ∨ c = '\t' → SkipPiece [c]
  | line (t : Str) : LineText t → SkipPiece ('-' :: '-' :: (t ++ ['\n']))
  | long (n : Nat) (b : Str) : LongBody n false b → SkipPiece ('-' :: '-' :: (opener n ++ (b ++ closer n)))

theorem SkipPiece.gap {p g : Str} (hp : SkipPiece p) (hg : Gap g) : Gap (p ++ g) := by
  cases hp with
  | blank c h => exact .blank c g h hg
  | line t h => simpa using Gap.line t g h hg
  | long n b h => simpa using Gap.long n b g h hg

theorem gap_cases {g : Str} (h : Gap g) : g = [] ∨ ∃ p g', g = p ++ g' ∧ p ≠ [] ∧ SkipPiece p ∧ Gap g' := by
  cases h with
  | nil => exact Or.inl rfl
  | blank c g hc hg => exact Or.inr ⟨[c], g, rfl, by simp, .blank c hc, hg⟩
  | line t g ht hg => exact Or.inr ⟨_, g, by simp, by simp, .line t ht, hg⟩
  | long n b g hb hg => exact Or.inr ⟨_, g, by simp, by simp, .long n b hb, hg⟩

/-- Gaps can be put together. -/
theorem Gap.append {a b : Str} (ha : Gap a) (hb : Gap b) : Gap (a ++ b) := by
  induction ha with
  | nil => exact hb
  | blank c g hc _ ih => exact .blank c _ hc ih
  | line t g ht _ ih => simpa using Gap.line t _ ht ih
  | long n t g ht _ ih => simpa using Gap.long n t _ ht ih

theorem lexStep_skip_ok (i : Nat) (p s : Str) (hp : SkipPiece p) :
    lexStep ⟨i, p ++ s⟩ = .skip ⟨i + p.length, s⟩ := by
  have e0 : ∀ s, lexStep ⟨i, '-' :: s⟩ = lexMinus ⟨i, '-' :: s⟩ := by
    intro s; simp [lexStep, single, double]
  cases hp with
  | blank c h =>
    simp [lexStep, h]
  | line t h =>
    have := getCommentEnds_line (i + 2) t s h
    rw [List.cons_append, e0]
    simp [lexMinus, this]
    omega
  | long n b h =>
    have := getCommentEnds_long (i + 2) n b s h
    rw [List.cons_append, e0]
    simp [lexMinus, this]
    simp [opener, closer]
    omega

theorem lexStep_final_ok (i : Nat) (t : Str) (h : LineText t) :
    lexStep ⟨i, '-' :: '-' :: t⟩ = .skip ⟨i + 2 + t.length, []⟩ := by
  have e0 : ∀ s, lexStep ⟨i, '-' :: s⟩ = lexMinus ⟨i, '-' :: s⟩ := by
    intro s; simp [lexStep, single, double]
  have := getCommentEnds_eof (i + 2) t h
  rw [e0]
  simp [lexMinus, this]

theorem quote_step_ne_skip {i : Nat} {s : Str} {l : Char} {c : Chars} : lexQuote ⟨i, s⟩ l ≠ .skip c := by
  unfold lexQuote
  simp only
  split <;> simp

/-- What a skip step has read. -/
theorem lexStep_skip_fwd {i : Nat} {s : Str} {c : Chars} (h : lexStep ⟨i, s⟩ = .skip c) :
    (∃ p, s = p ++ c.rest ∧ SkipPiece p ∧ c.idx = i + p.length ∧ p ≠ []) ∨
    (∃ t, s = '-' :: '-' :: t ∧ LineText t ∧ c = ⟨i + 2 + t.length, []⟩) := by
  cases s with
  | nil => simp [lexStep] at h
  | cons ch s =>
    by_cases hb : ch = ' ' ∨ ch = '\n' ∨ ch = '\r' ∨ ch = '\t'
    · have := lexStep_skip_ok i [ch] s (.blank ch hb)
      rw [List.singleton_append] at this
      rw [this] at h
      cases h
      exact Or.inl ⟨[ch], rfl, .blank ch hb, rfl, by simp⟩
    · by_cases hm : ch = '-'
      · subst hm
        have e0 : lexStep ⟨i, '-' :: s⟩ = lexMinus ⟨i, '-' :: s⟩ := by
          simp [lexStep, single, double]
        rw [e0] at h
        unfold lexMinus at h
        simp only [advance_cons] at h
        by_cases h1 : s.head? = some '-'
        · rw [if_pos h1] at h
          cases s with
          | nil => simp at h1
          | cons d s =>
            simp at h1
            subst h1
            simp only [advance_cons, Nat.add_assoc, Nat.reduceAdd] at h
            by_cases h2 : (getCommentEnds (Chars.mk (i + 2) s) (i + 2)).succ = true
            · rw [if_pos h2] at h
              rcases getCommentEnds_fwd _ _ h2 with ⟨t, r, rfl, ht⟩ | ht | ⟨n, b, r, rfl, hb'⟩
              · rw [getCommentEnds_line _ _ _ ht] at h
                cases h
                exact Or.inl ⟨_, by simp, .line t ht, by simp; omega, by simp⟩
              · rw [getCommentEnds_eof _ _ ht] at h
                cases h
                exact Or.inr ⟨s, rfl, ht, rfl⟩
              · rw [getCommentEnds_long _ _ _ _ hb'] at h
                cases h
                refine Or.inl ⟨_, by simp, .long n b hb', ?_, by simp⟩
                simp [opener, closer]
                omega
            · rw [if_neg h2] at h; cases h
        · rw [if_neg h1] at h; cases h
      · exfalso
        unfold lexStep at h
        simp only [advance_cons] at h
        rw [if_neg hb] at h
        cases hs : single ch with
        | some t => rw [hs] at h; cases h
        | none =>
          rw [hs] at h
          simp only at h
          cases hd : double ch with
          | some p =>
            rw [hd] at h
            simp only at h
            cases s with
            | nil => cases h
            | cons d s =>
              simp only at h
              cases hl : p.2.lookup d with
              | none => rw [hl] at h; cases h
              | some t => rw [hl] at h; cases h
          | none =>
            rw [hd] at h
            simp only at h
            rw [if_neg hm] at h
            by_cases h1 : ch = '#'
            · rw [if_pos h1] at h
              unfold lexHash at h
              simp only at h
              split at h <;> cases h
            rw [if_neg h1] at h
            by_cases h2 : ch = '.'
            · rw [if_pos h2] at h
              unfold lexPeriod at h
              simp only at h
              repeat' split at h
              all_goals cases h
            rw [if_neg h2] at h
            by_cases h3 : ch = '['
            · rw [if_pos h3] at h
              unfold lexSquare at h
              simp only at h
              repeat' split at h
              all_goals cases h
            rw [if_neg h3] at h
            by_cases h4 : ch = '"' ∨ ch = '\''
            · rw [if_pos h4] at h
              exact quote_step_ne_skip h
            rw [if_neg h4] at h
            by_cases h5 : isDigit ch = true
            · rw [if_pos h5] at h
              unfold lexNumber at h
              simp only at h
              repeat' split at h
              all_goals cases h
            rw [if_neg h5] at h
            by_cases h6 : isAlpha ch = true ∨ ch = '_'
            · rw [if_pos h6] at h
              unfold lexWord at h
              simp only at h
              repeat' split at h
              all_goals cases h
            rw [if_neg h6] at h
            cases h

theorem lexStep_eof {i : Nat} {s : Str} : lexStep ⟨i, s⟩ = .eof ↔ s = [] := by
  constructor
  · intro h
    cases s with
    | nil => rfl
    | cons ch s =>
      exfalso
      by_cases hb : ch = ' ' ∨ ch = '\n' ∨ ch = '\r' ∨ ch = '\t'
      · have := lexStep_skip_ok i [ch] s (.blank ch hb)
        rw [List.singleton_append] at this
        rw [this] at h
        cases h
      unfold lexStep at h
      simp only [advance_cons] at h
      rw [if_neg hb] at h
      cases hs : single ch with
      | some t => rw [hs] at h; cases h
      | none =>
        rw [hs] at h
        simp only at h
        cases hd : double ch with
        | some p =>
          rw [hd] at h
          simp only at h
          cases s with
          | nil => cases h
          | cons d s =>
            simp only at h
            cases hl : p.2.lookup d with
            | none => rw [hl] at h; cases h
            | some t => rw [hl] at h; cases h
        | none =>
          rw [hd] at h
          simp only at h
          by_cases h1 : ch = '#'
          · rw [if_pos h1] at h
            unfold lexHash at h
            simp only at h
            split at h <;> cases h
          rw [if_neg h1] at h
          by_cases hm : ch = '-'
          · rw [if_pos hm] at h
            unfold lexMinus at h
            simp only at h
            repeat' split at h
            all_goals cases h
          rw [if_neg hm] at h
          by_cases h2 : ch = '.'
          · rw [if_pos h2] at h
            unfold lexPeriod at h
            simp only at h
            repeat' split at h
            all_goals cases h
          rw [if_neg h2] at h
          by_cases h3 : ch = '['
          · rw [if_pos h3] at h
            unfold lexSquare at h
            simp only at h
            repeat' split at h
            all_goals cases h
          rw [if_neg h3] at h
          by_cases h4 : ch = '"' ∨ ch = '\''
          · rw [if_pos h4] at h
            unfold lexQuote at h
            simp only at h
            split at h <;> cases h
          rw [if_neg h4] at h
          by_cases h5 : isDigit ch = true
          · rw [if_pos h5] at h
            unfold lexNumber at h
            simp only at h
            repeat' split at h
            all_goals cases h
          rw [if_neg h5] at h
          by_cases h6 : isAlpha ch = true ∨ ch = '_'
          · rw [if_pos h6] at h
            unfold lexWord at h
            simp only at h
            repeat' split at h
            all_goals cases h
          rw [if_neg h6] at h
          cases h
  · rintro rfl; rfl

theorem lexStep_tok_lt {i : Nat} {s : Str} {l : Nat} {t : Token} {r : Nat} {c : Chars}
    (h : lexStep ⟨i, s⟩ = .tok l t r c) : c.rest.length < s.length := by
  obtain ⟨_, _, _, u, hu, hne, _⟩ := lexStep_fwd h
  rw [hu]
  have := List.length_pos_iff.2 hne
  simp; omega

theorem lexStep_skip_lt {i : Nat} {s : Str} {c : Chars}
    (h : lexStep ⟨i, s⟩ = .skip c) : c.rest.length < s.length := by
  rcases lexStep_skip_fwd h with ⟨p, hs, _, _, hne⟩ | ⟨t, rfl, _, rfl⟩
  · rw [hs]
    have := List.length_pos_iff.2 hne
    simp; omega
  · simp

/-- The amount of fuel does not matter once it exceeds the length of the text. -/
theorem lexGo_fuel (f f' : Nat) (c : Chars) (h : c.rest.length < f) (h' : c.rest.length < f') :
    lexGo f c = lexGo f' c := by
  induction f generalizing f' c with
  | zero => omega
  | succ f ih =>
    cases f' with
    | zero => omega
    | succ f' =>
      obtain ⟨i, s⟩ := c
      simp only [lexGo]
      cases hs : lexStep ⟨i, s⟩ with
      | eof => rfl
      | bad => rfl
      | skip c' =>
        have := lexStep_skip_lt hs
        simp only at h h'
        exact ih f' c' (by omega) (by omega)
      | tok l t r c' =>
        have := lexStep_tok_lt hs
        simp only at h h'
        simp only
        rw [ih f' c' (by omega) (by omega)]

/-- The tokens of a text that starts at position `i`. -/
def lexFrom (i : Nat) (s : Str) : Option (List TokL) := lexGo (s.length + 1) ⟨i, s⟩

theorem lexLua_eq (s : Str) : lexLua s = lexFrom 0 s := rfl

theorem lexFrom_skip {i : Nat} {s : Str} {c : Chars} (h : lexStep ⟨i, s⟩ = .skip c) :
    lexFrom i s = lexFrom c.idx c.rest := by
  have := lexStep_skip_lt h
  unfold lexFrom
  rw [lexGo, h]
  exact lexGo_fuel _ _ _ this (by simp)

theorem lexFrom_tok {i : Nat} {s : Str} {l : Nat} {t : Token} {r : Nat} {c : Chars}
    (h : lexStep ⟨i, s⟩ = .tok l t r c) :
    lexFrom i s = (lexFrom c.idx c.rest).map (⟨l, t, r⟩ :: ·) := by
  have := lexStep_tok_lt h
  unfold lexFrom
  rw [lexGo, h]
  simp only
  rw [lexGo_fuel _ (c.rest.length + 1) _ this (by simp)]

theorem lexFrom_nil (i : Nat) : lexFrom i [] = some [⟨i, .eof, i⟩] := rfl

theorem lexFrom_bad {i : Nat} {s : Str} (h : lexStep ⟨i, s⟩ = .bad) : lexFrom i s = none := by
  unfold lexFrom
  rw [lexGo, h]

/-- Gaps are skipped. -/
theorem lexFrom_gap {g : Str} (hg : Gap g) (i : Nat) (s : Str) : lexFrom i (g ++ s) = lexFrom (i + g.length) s := by
  induction hl : g.length using Nat.strongRecOn generalizing g i with
  | _ n ih =>
  rcases gap_cases hg with rfl | ⟨p, g', rfl, hne, hp, hg'⟩
  · simp at hl; subst hl; rfl
  · have hpos := List.length_pos_iff.2 hne
    rw [List.append_assoc, lexFrom_skip (lexStep_skip_ok i p (g' ++ s) hp)]
    simp at hl
    rw [ih g'.length (by omega) hg' _ rfl]
    simp only
    congr 1
    omega

theorem lexFrom_final {g : Str} (hg : FinalGap g) (i : Nat) :
    lexFrom i g = some [⟨i + g.length, .eof, i + g.length⟩] := by
  rcases hg with hg | ⟨a, t, rfl, ha, ht⟩
  · have := lexFrom_gap hg i []
    simpa [lexFrom_nil] using this
  · rw [lexFrom_gap ha, lexFrom_skip (lexStep_final_ok _ t ht)]
    simp [lexFrom_nil]
    omega

/-- The tokens tile the text. -/
theorem lexFrom_tiles (i : Nat) (s : Str) (toks : List TokL) (h : lexFrom i s = some toks) : Tiles s i toks := by
  induction hl : s.length using Nat.strongRecOn generalizing s i toks with
  | _ n ih =>
  cases hs : lexStep ⟨i, s⟩ with
  | eof =>
    rw [lexStep_eof] at hs
    subst hs
    rw [lexFrom_nil] at h
    cases h
    exact Or.inl ⟨rfl, rfl, Or.inl .nil, by simp, rfl⟩
  | bad => rw [lexFrom_bad hs] at h; cases h
  | skip c =>
    have hlt := lexStep_skip_lt hs
    rw [lexFrom_skip hs] at h
    have hT := ih c.rest.length (by omega) c.idx c.rest toks h rfl
    rcases lexStep_skip_fwd hs with ⟨p, he, hp, hi, hne⟩ | ⟨t, rfl, ht, rfl⟩
    · cases toks with
      | nil => exact hT.elim
      | cons t ts =>
        rcases hT with ⟨h1, h2, h3, h4, h5⟩ | ⟨g, u, s', h0, h1, h2, h3, h4⟩
        · refine Or.inl ⟨h1, h2, ?_, ?_, h5⟩
          · rw [he]
            rcases h3 with h3 | ⟨a, t, h3, ha, ht⟩
            · exact Or.inl (hp.gap h3)
            · exact Or.inr ⟨p ++ a, t, by rw [h3]; simp, hp.gap ha, ht⟩
          · rw [h4, hi, he]; simp; omega
        · refine Or.inr ⟨p ++ g, u, s', h0, by rw [he, h1]; simp, hp.gap h2, ?_, h4⟩
          rw [h3, hi]; simp; omega
    · rw [lexFrom_nil] at h
      cases h
      exact Or.inl ⟨rfl, rfl, Or.inr ⟨[], t, rfl, .nil, ht⟩, by simp; omega, rfl⟩
  | tok l t r c =>
    have hlt := lexStep_tok_lt hs
    rw [lexFrom_tok hs] at h
    simp only [Option.map_eq_some_iff] at h
    obtain ⟨ts, h, rfl⟩ := h
    have hT := ih c.rest.length (by omega) c.idx c.rest ts h rfl
    obtain ⟨h1, h2, h3, u, hu, hne, hc, h4⟩ := lexStep_fwd hs
    refine Or.inr ⟨[], u, c.rest, h3, hu, .nil, by simp [h1], ?_, hne, ?_, ?_⟩
    · simp only [h1, h2, hc]
    · rcases h4 with ⟨h4, _⟩ | ⟨x, h4, h5, h6, _⟩
      · exact Or.inl h4
      · exact Or.inr ⟨x, h4, h5, h6⟩
    · simp only [h2]; exact hT

/-- As `Tiles`, and every token is delimited by what follows it. -/
def TilesR : Str → Nat → List TokL → Prop
  | _, _, [] => False
  | s, pos, t :: ts =>
    (t.tok = .eof ∧ ts = [] ∧ FinalGap s ∧ t.l = pos + s.length ∧ t.r = t.l) ∨
    (∃ g u s', t.tok ≠ .eof ∧ s = g ++ (u ++ s') ∧ Gap g ∧ t.l = pos + g.length ∧ t.r = t.l + u.length ∧
      u ≠ [] ∧ ((u = spell t.tok ∧ Reads t.tok s'.head?) ∨ (∃ x, t.tok = .sheBang x ∧ u = x ∧ s' = [] ∧ TokOk t.tok)) ∧
      TilesR s' t.r ts)

/-- The tokens tile the text and are delimited. -/
theorem lexFrom_tilesR (i : Nat) (s : Str) (toks : List TokL) (h : lexFrom i s = some toks) : TilesR s i toks := by
  induction hl : s.length using Nat.strongRecOn generalizing s i toks with
  | _ n ih =>
  cases hs : lexStep ⟨i, s⟩ with
  | eof =>
    rw [lexStep_eof] at hs
    subst hs
    rw [lexFrom_nil] at h
    cases h
    exact Or.inl ⟨rfl, rfl, Or.inl .nil, by simp, rfl⟩
  | bad => rw [lexFrom_bad hs] at h; cases h
  | skip c =>
    have hlt := lexStep_skip_lt hs
    rw [lexFrom_skip hs] at h
    have hT := ih c.rest.length (by omega) c.idx c.rest toks h rfl
    rcases lexStep_skip_fwd hs with ⟨p, he, hp, hi, hne⟩ | ⟨t, rfl, ht, rfl⟩
    · cases toks with
      | nil => exact hT.elim
      | cons t ts =>
        rcases hT with ⟨h1, h2, h3, h4, h5⟩ | ⟨g, u, s', h0, h1, h2, h3, h4⟩
        · refine Or.inl ⟨h1, h2, ?_, ?_, h5⟩
          · rw [he]
            rcases h3 with h3 | ⟨a, t, h3, ha, ht⟩
            · exact Or.inl (hp.gap h3)
            · exact Or.inr ⟨p ++ a, t, by rw [h3]; simp, hp.gap ha, ht⟩
          · rw [h4, hi, he]; simp; omega
        · refine Or.inr ⟨p ++ g, u, s', h0, by rw [he, h1]; simp, hp.gap h2, ?_, h4⟩
          rw [h3, hi]; simp; omega
    · rw [lexFrom_nil] at h
      cases h
      exact Or.inl ⟨rfl, rfl, Or.inr ⟨[], t, rfl, .nil, ht⟩, by simp; omega, rfl⟩
  | tok l t r c =>
    have hlt := lexStep_tok_lt hs
    rw [lexFrom_tok hs] at h
    simp only [Option.map_eq_some_iff] at h
    obtain ⟨ts, h, rfl⟩ := h
    have hT := ih c.rest.length (by omega) c.idx c.rest ts h rfl
    obtain ⟨h1, h2, h3, u, hu, hne, hc, h4⟩ := lexStep_fwd hs
    refine Or.inr ⟨[], u, c.rest, h3, hu, .nil, by simp [h1], ?_, hne, h4, ?_⟩
    · simp only [h1, h2, hc]
    · simp only [h2]; exact hT

/-- Gaps and tokens in turn, then a last gap. -/
def weave : List (Str × Token) → Str → Str
  | [], e => e
  | (g, t) :: l, e => g ++ (spell t ++ weave l e)

/-- All gaps are gaps and every token is delimited by what follows it. -/
def Woven : List (Str × Token) → Str → Prop
  | [], e => FinalGap e
  | (g, t) :: l, e => Gap g ∧ Reads t (weave l e).head? ∧ Woven l e

/-- A text woven from gaps and tokens is read back. -/
theorem lexFrom_weave (l : List (Str × Token)) (e : Str) (h : Woven l e) (i : Nat) :
    (lexFrom i (weave l e)).map (·.map TokL.tok) = some (l.map Prod.snd ++ [.eof]) := by
  induction l generalizing i with
  | nil => simp [weave, lexFrom_final h]
  | cons p l ih =>
    obtain ⟨g, t⟩ := p
    obtain ⟨h1, h2, h3⟩ := h
    simp only [weave]
    rw [lexFrom_gap h1, lexFrom_tok (lexStep_ok _ t _ h2)]
    have := ih h3 (i + g.length + (spell t).length)
    cases hx : lexFrom (i + g.length + (spell t).length) (weave l e) with
    | none => rw [hx] at this; simp at this
    | some ts =>
      rw [hx] at this
      simp at this
      simp [this]

/-- The tokens of a text that can be lexed are all delimited. (A shebang line at the very end has no
line break and is not covered.) -/
theorem lexFrom_woven (i : Nat) (s : Str) (toks : List TokL) (h : lexFrom i s = some toks) :
    ∃ l e, toks.map TokL.tok = l.map Prod.snd ++ [.eof] ∧
      ((s = weave l e ∧ Woven l e) ∨
       (∃ l' g x, l = l' ++ [(g, .sheBang x)] ∧ e = [] ∧ s ++ ['\n'] = weave l e ∧ Woven l e)) := by
  induction hl : s.length using Nat.strongRecOn generalizing s i toks with
  | _ n ih =>
  cases hs : lexStep ⟨i, s⟩ with
  | eof =>
    rw [lexStep_eof] at hs
    subst hs
    rw [lexFrom_nil] at h
    cases h
    exact ⟨[], [], rfl, Or.inl ⟨rfl, Or.inl .nil⟩⟩
  | bad => rw [lexFrom_bad hs] at h; cases h
  | skip c =>
    have hlt := lexStep_skip_lt hs
    rw [lexFrom_skip hs] at h
    obtain ⟨l, e, hm, hT⟩ := ih c.rest.length (by omega) c.idx c.rest toks h rfl
    rcases lexStep_skip_fwd hs with ⟨p, he, hp, hi, hne⟩ | ⟨t, rfl, ht, rfl⟩
    · cases l with
      | nil =>
        rcases hT with ⟨h1, h2⟩ | ⟨l', g, x, h1, _⟩
        · refine ⟨[], p ++ e, hm, Or.inl ⟨by rw [he, h1]; rfl, ?_⟩⟩
          rcases h2 with h2 | ⟨a, t, h2, ha, ht⟩
          · exact Or.inl (hp.gap h2)
          · exact Or.inr ⟨p ++ a, t, by rw [h2]; simp, hp.gap ha, ht⟩
        · simp at h1
      | cons q l =>
        obtain ⟨g, t⟩ := q
        refine ⟨(p ++ g, t) :: l, e, by simpa using hm, ?_⟩
        rcases hT with ⟨h1, h2, h3, h4⟩ | ⟨l', g', x, h1, h2, h3, h4, h5, h6⟩
        · exact Or.inl ⟨by rw [he, h1]; simp [weave], hp.gap h2, h3, h4⟩
        · right
          cases l' with
          | nil =>
            simp at h1
            obtain ⟨⟨rfl, rfl⟩, rfl⟩ := h1
            exact ⟨[], p ++ g, x, rfl, h2, by rw [he, List.append_assoc, h3]; simp [weave], hp.gap h4, h5, h6⟩
          | cons y l' =>
            simp at h1
            obtain ⟨rfl, rfl⟩ := h1
            exact ⟨(p ++ g, t) :: l', g', x, rfl, h2, by rw [he, List.append_assoc, h3]; simp [weave], hp.gap h4, h5, h6⟩
    · rw [lexFrom_nil] at h
      cases h
      exact ⟨[], '-' :: '-' :: t, rfl, Or.inl ⟨rfl, Or.inr ⟨[], t, rfl, .nil, ht⟩⟩⟩
  | tok l t r c =>
    have hlt := lexStep_tok_lt hs
    rw [lexFrom_tok hs] at h
    simp only [Option.map_eq_some_iff] at h
    obtain ⟨ts, h, rfl⟩ := h
    obtain ⟨l', e, hm, hT⟩ := ih c.rest.length (by omega) c.idx c.rest ts h rfl
    obtain ⟨h1, h2, h3, u, hu, hne, hc, h4⟩ := lexStep_fwd hs
    rcases h4 with ⟨h4, h5⟩ | ⟨x, h4, h5, h6, h7⟩
    · refine ⟨([], t) :: l', e, by simp [hm], ?_⟩
      rcases hT with ⟨k1, k2⟩ | ⟨l'', g', x, k1, k2, k3, k4⟩
      · exact Or.inl ⟨by rw [hu, h4, k1]; simp [weave], .nil, by rw [← k1]; exact h5, k2⟩
      · right
        refine ⟨([], t) :: l'', g', x, by rw [k1]; rfl, k2, by rw [hu, List.append_assoc, k3, h4]; simp [weave],
          .nil, ?_, k4⟩
        rw [← k3]
        cases hcr : c.rest with
        | nil =>
          exfalso
          rw [hcr] at k3
          rw [k1, k2] at k3
          -- the remaining text is empty, so no token follows
          rw [hcr, lexFrom_nil] at h
          cases h
          rw [k1] at hm
          have := congrArg List.length hm
          simp at this
        | cons d rest => rw [hcr] at h5; simpa using h5
    · subst h4
      rw [h6, lexFrom_nil] at h
      cases h
      refine ⟨[([], .sheBang x)], [], rfl, Or.inr ⟨[], [], x, rfl, rfl, ?_, .nil, ?_, Or.inl .nil⟩⟩
      · rw [hu, h5, h6]; simp [weave, spell]
      · exact Or.inr ⟨h7, by simp [weave]⟩

end Luafmt
