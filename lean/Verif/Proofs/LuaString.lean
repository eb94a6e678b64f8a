import Verif.Spec.LuaString
import Verif.Model.Util

/-
Lemmas about quote conversion.
-/
namespace Luafmt
open Spec

/-- The converter's flag agrees with the reader's state. -/
def Agree (esc : Bool) (st : LitState) : Prop := esc = true ↔ st = .esc

theorem litPlain_next {q c : Char} {p : LitState × List Nat} (h : litPlain q c = some p) :
    Agree (c == '\\') p.1 := by
  unfold litPlain at h
  split at h
  · rename_i hc; subst hc; simp at h; subst h; simp [Agree]
  · rename_i hc
    split at h
    · simp at h
    · simp at h; subst h; simp [Agree, hc]

theorem litStep_agree {q c : Char} {st : LitState} {esc : Bool} {p : LitState × List Nat}
    (ha : Agree esc st) (h : litStep q st c = some p) : Agree (!esc && c == '\\') p.1 := by
  have hb : ∀ (s : LitState), s ≠ .esc → c ≠ '\\' → Agree (!esc && c == '\\') s := by
    intro s h1 h2
    simp [Agree, h1, h2]
  have hx : ∀ {v}, hexVal c = some v → c ≠ '\\' := by
    rintro v hv rfl
    simp [hexVal] at hv
  have hd : ∀ {v}, decVal c = some v → c ≠ '\\' := by
    rintro v hv rfl
    simp [decVal] at hv
  cases st with
  | plain =>
    have he : esc = false := by
      cases esc <;> simp_all [Agree]
    subst he
    simpa using litPlain_next h
  | esc =>
    have he : esc = true := ha.2 rfl
    subst he
    simp only [litStep] at h
    simp only [Bool.not_true, Bool.false_and, Agree]
    split at h
    · simp at h; subst h; simp
    split at h
    · simp at h; subst h; simp
    split at h
    · simp at h; subst h; simp
    split at h
    · simp at h; subst h; simp
    · simp only [Option.map_eq_some_iff] at h
      obtain ⟨b, _, rfl⟩ := h
      simp
  | hex0 =>
    simp only [litStep, Option.map_eq_some_iff] at h
    obtain ⟨v, hv, rfl⟩ := h
    exact hb _ (by simp) (hx hv)
  | hex1 u =>
    simp only [litStep, Option.map_eq_some_iff] at h
    obtain ⟨v, hv, rfl⟩ := h
    exact hb _ (by simp) (hx hv)
  | dec k u =>
    have he : esc = false := by
      cases esc <;> simp_all [Agree]
    subst he
    simp only [litStep] at h
    split at h
    · rename_i v hv
      simp at h; subst h
      split at hv
      · exact hb _ (by simp) (hd hv)
      · simp at hv
    · split at h
      · simp only [Option.map_eq_some_iff] at h
        obtain ⟨p', hp', rfl⟩ := h
        simpa using litPlain_next hp'
      · simp at h
  | uni0 =>
    simp only [litStep] at h
    split at h
    · rename_i hc
      simp at h; subst h
      exact hb _ (by simp) (by rw [hc]; decide)
    · simp at h
  | uni1 u =>
    simp only [litStep] at h
    split at h
    · rename_i hc
      split at h
      · simp at h; subst h
        exact hb _ (by simp) (by rw [hc]; decide)
      · simp at h
    · split at h
      · rename_i v hv
        split at h
        · simp at h; subst h
          exact hb _ (by simp) (hx hv)
        · simp at h
      · simp at h
  | skip =>
    have he : esc = false := by
      cases esc <;> simp_all [Agree]
    subst he
    simp only [litStep] at h
    split at h
    · rename_i hc
      simp at h; subst h
      exact hb _ (by simp) (by rintro rfl; simp [isSpace] at hc)
    · simpa using litPlain_next h

/-- A step that reads neither quote is the same for both quotes. -/
theorem litStep_quote {st : LitState} {c : Char} (h1 : c ≠ '"' ∨ st = .esc) (h2 : c ≠ '\'' ∨ st = .esc) :
    litStep '"' st c = litStep '\'' st c := by
  have hp : (st ≠ .esc) → litPlain '"' c = litPlain '\'' c := by
    intro h
    have hc1 : c ≠ '"' := h1.resolve_right h
    have hc2 : c ≠ '\'' := h2.resolve_right h
    simp [litPlain, hc1, hc2]
  cases st <;> simp only [litStep] <;> rw [hp (by simp)]

/-- Reading `\"` where `"` was read before. -/
theorem litStep_dquote {st : LitState} (h : st ≠ .esc) :
    (litStep '\'' st '"' = none ∧ litStep '"' st '\\' = none) ∨
    (∃ out, litStep '\'' st '"' = some (.plain, out ++ [34]) ∧ litStep '"' st '\\' = some (.esc, out)) := by
  have e : ('"').toNat = 34 := by decide
  cases st with
  | plain => right; exact ⟨[], by simp [litStep, litPlain, e, utf8], by simp [litStep, litPlain]⟩
  | esc => exact absurd rfl h
  | hex0 => left; simp [litStep, hexVal]
  | hex1 u => left; simp [litStep, hexVal]
  | dec k u =>
    by_cases hu : u < 256
    · right
      refine ⟨[u], ?_, ?_⟩
      · have : (if k < 3 then decVal '"' else none) = none := by simp [decVal]
        simp [litStep, this, hu, litPlain, e, utf8]
      · have : (if k < 3 then decVal '\\' else none) = none := by simp [decVal]
        simp [litStep, this, hu, litPlain]
    · left
      have h1 : (if k < 3 then decVal '"' else none) = none := by simp [decVal]
      have h2 : (if k < 3 then decVal '\\' else none) = none := by simp [decVal]
      simp [litStep, h1, h2, hu]
  | uni0 => left; simp [litStep]
  | uni1 u => left; simp [litStep, hexVal]
  | skip =>
    right
    exact ⟨[], by simp [litStep, litPlain, isSpace, e, utf8], by simp [litStep, litPlain, isSpace]⟩

/-- A single quote outside an escape sequence ends the literal, so a body in single quotes that
contains one has no value. -/
theorem litStep_squote {st : LitState} (h : st ≠ .esc) : litStep '\'' st '\'' = none := by
  cases st <;> simp_all [litStep, litPlain, hexVal, isSpace, decVal]

theorem convert_run (esc : Bool) (st : LitState) (s : Str) (ha : Agree esc st) (v : List Nat)
    (h : litRun '\'' st s = some v) : litRun '"' st (charToNormalGo esc s) = some v := by
  induction s generalizing esc st v with
  | nil => simpa [charToNormalGo, litRun] using h
  | cons c s ih =>
    simp only [litRun] at h
    split at h
    · rename_i st' out hst
      simp only [Option.map_eq_some_iff] at h
      obtain ⟨v', hv', rfl⟩ := h
      have hag := litStep_agree ha hst
      have := ih _ st' hag v' hv'
      simp only [charToNormalGo]
      by_cases hq : c = '"' ∧ esc = false
      · obtain ⟨rfl, rfl⟩ := hq
        have hne : st ≠ .esc := fun he => by simpa using ha.2 he
        rcases litStep_dquote hne with ⟨h1, _⟩ | ⟨o, h1, h2⟩
        · rw [h1] at hst; simp at hst
        · rw [h1] at hst
          simp at hst
          obtain ⟨rfl, rfl⟩ := hst
          have he : litStep '"' .esc '"' = some (.plain, [34]) := by
            simp [litStep, decVal, simpleEscape]
          simp only [beq_self_eq_true, Bool.not_false, Bool.and_self, if_true]
          simp only [litRun, h2, he]
          simp only [Bool.not_false, Bool.true_and] at this
          simp only [Bool.true_and]
          rw [this]
          simp
      · have hcond : (c == '"' && !esc) = false := by
          cases esc <;> simp_all
        simp only [hcond]
        have hs1 : c ≠ '"' ∨ st = .esc := by
          by_cases h1 : c = '"'
          · right
            have : esc = true := by cases esc <;> simp_all
            exact ha.1 this
          · exact Or.inl h1
        have hs2 : c ≠ '\'' ∨ st = .esc := by
          by_cases h1 : c = '\''
          · by_cases h2 : st = .esc
            · exact Or.inr h2
            · subst h1
              rw [litStep_squote h2] at hst
              simp at hst
          · exact Or.inl h1
        simp only [Bool.false_eq_true, if_false, litRun]
        rw [litStep_quote hs1 hs2, hst]
        simp [this]
    · simp at h

/-- Converting twice. -/
theorem convert_idem (esc : Bool) (s : Str) :
    charToNormalGo esc (charToNormalGo esc s) = charToNormalGo esc s := by
  induction s generalizing esc with
  | nil => rfl
  | cons c s ih =>
    simp only [charToNormalGo]
    split
    · rename_i h
      simp at h
      obtain ⟨rfl, rfl⟩ := h
      have := ih false
      simp [charToNormalGo, this]
    · rename_i h
      simp only [charToNormalGo, h]
      simp [ih]

end Luafmt
