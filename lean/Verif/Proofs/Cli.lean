import Verif.Spec.Cli
import Verif.Proofs.Config

/-
Facts about the reading of command line arguments.
-/
namespace Luafmt
open Spec

theorem isIdent_iff (c : Char) : isIdent c = true ↔ WordChar c := by
  simp only [isIdent, isAlpha, isDigit, WordChar, Bool.or_eq_true, Bool.and_eq_true, decide_eq_true_eq,
    beq_iff_eq, Char.le_def, UInt32.le_iff_toNat_le]
  have e : ∀ d : Char, d.toNat = d.val.toNat := fun _ => rfl
  simp only [← e]
  have h1 : 'a'.toNat = 97 := rfl
  have h2 : 'z'.toNat = 122 := rfl
  have h3 : 'A'.toNat = 65 := rfl
  have h4 : 'Z'.toNat = 90 := rfl
  have h5 : '0'.toNat = 48 := rfl
  have h6 : '9'.toNat = 57 := rfl
  rw [h1, h2, h3, h4, h5, h6]
  constructor
  · rintro ((h | h) | h)
    · rcases h with h | h
      · exact Or.inr (Or.inl h)
      · exact Or.inl h
    · exact Or.inr (Or.inr (Or.inl h))
    · exact Or.inr (Or.inr (Or.inr h))
  · rintro (h | h | h | h)
    · exact Or.inl (Or.inl (Or.inr h))
    · exact Or.inl (Or.inl (Or.inl h))
    · exact Or.inl (Or.inr h)
    · exact Or.inr h

theorem takeWhile_of_stop {p : Char → Bool} (n v : Str) (x : Char) (hn : ∀ c ∈ n, p c = true)
    (hx : p x = false) : (n ++ x :: v).takeWhile p = n ∧ (n ++ x :: v).dropWhile p = x :: v := by
  induction n with
  | nil => simp [hx]
  | cons c n ih =>
    have hc := hn c (by simp)
    have := ih (fun d hd => hn d (by simp [hd]))
    simp [hc, this.1, this.2]

theorem matchConfigOpt_iff (s n v : Str) : matchConfigOpt s = some (n, v) ↔ Assigns s n v := by
  constructor
  · intro h
    unfold matchConfigOpt at h
    split at h
    · rename_i r
      simp only at h
      split at h
      · rename_i w hw
        by_cases hc : (spanStr isIdent r).1 ≠ [] ∧ ¬'\n' ∈ w
        · rw [if_pos hc] at h
          simp only [spanStr] at hw hc
          simp only [spanStr, Option.some.injEq, Prod.mk.injEq] at h
          obtain ⟨h1, h2⟩ := h
          subst h2
          have hr : r = n ++ '=' :: w := by
            have := List.takeWhile_append_dropWhile (p := isIdent) (l := r)
            rw [hw, h1] at this; exact this.symm
          refine ⟨by simp [hr], h1 ▸ hc.1, ?_, hc.2⟩
          intro c hmem
          rw [← isIdent_iff]
          rw [← h1] at hmem
          exact (List.all_eq_true.1 (List.all_takeWhile (p := isIdent) (l := r))) c hmem
        · rw [if_neg hc] at h; cases h
      · cases h
    · cases h
  · rintro ⟨rfl, hn, hw, hv⟩
    have := takeWhile_of_stop (p := isIdent) n v '=' (fun c hc => (isIdent_iff c).2 (hw c hc)) (by decide)
    simp only [List.append_assoc, List.cons_append, List.nil_append, matchConfigOpt, spanStr, this.1, this.2]
    rw [if_pos ⟨hn, hv⟩]

theorem matchConfigOpt_none (s : Str) : matchConfigOpt s = none ↔ ∀ n v, ¬ Assigns s n v := by
  constructor
  · intro h n v ha
    rw [(matchConfigOpt_iff s n v).2 ha] at h; cases h
  · intro h
    cases hm : matchConfigOpt s with
    | none => rfl
    | some p => exact absurd ((matchConfigOpt_iff s p.1 p.2).1 hm) (h _ _)

theorem matchProgramOpt_some (s n : Str) (hn : n ≠ []) (hl : n.all isLower = true) :
    matchProgramOpt s = some n ↔ s = '-' :: n ∨ s = '-' :: '-' :: n := by
  have hd : ∀ r, n ≠ '-' :: r := by
    rintro r rfl
    simp [isLower] at hl
  constructor
  · intro h
    unfold matchProgramOpt at h
    simp only [Option.bind_eq_some_iff] at h
    obtain ⟨r, h1, h2⟩ := h
    split at h2
    · cases h2
      split at h1
      · cases h1; exact Or.inr rfl
      · cases h1; exact Or.inl rfl
      · cases h1
    · cases h2
  · rintro (rfl | rfl)
    · unfold matchProgramOpt
      simp only [Option.bind_eq_some_iff]
      refine ⟨n, ?_, by rw [if_pos ⟨hn, hl⟩]⟩
      rfl
    · simp [matchProgramOpt, hn]
      exact fun x hx => List.all_eq_true.1 hl x hx

/-- A switch name is recognised exactly in its four spellings. -/
theorem switch_iff (s a b : Str) (ha : a ≠ []) (hal : a.all isLower = true) (hb : b ≠ [])
    (hbl : b.all isLower = true) :
    (∃ n, matchProgramOpt s = some n ∧ (n = a ∨ n = b)) ↔
      s ∈ ['-' :: a, '-' :: '-' :: a, '-' :: b, '-' :: '-' :: b] := by
  simp only [List.mem_cons, List.not_mem_nil, or_false]
  constructor
  · rintro ⟨n, h, rfl | rfl⟩
    · rcases (matchProgramOpt_some s _ ha hal).1 h with h | h <;> simp [h]
    · rcases (matchProgramOpt_some s _ hb hbl).1 h with h | h <;> simp [h]
  · rintro (h | h | h | h)
    · exact ⟨a, (matchProgramOpt_some s a ha hal).2 (Or.inl h), Or.inl rfl⟩
    · exact ⟨a, (matchProgramOpt_some s a ha hal).2 (Or.inr h), Or.inl rfl⟩
    · exact ⟨b, (matchProgramOpt_some s b hb hbl).2 (Or.inl h), Or.inr rfl⟩
    · exact ⟨b, (matchProgramOpt_some s b hb hbl).2 (Or.inr h), Or.inr rfl⟩

/-- No assignment is a switch. -/
theorem assigns_not_switch (s n v : Str) (h : Assigns s n v) : matchProgramOpt s = none := by
  obtain ⟨rfl, hn, hw, _⟩ := h
  have : ¬ ((n ++ '=' :: v) ≠ [] ∧ (n ++ '=' :: v).all isLower = true) := by
    rintro ⟨_, h⟩
    simp [isLower] at h
  simp [matchProgramOpt]
  exact ⟨'=', by simp, by decide⟩

theorem parseOption_eq (s : Str) (c : Config) (o : ProgramOpts) :
    ((parseOption s c o).1 = match matchConfigOpt s with
      | some (n, v) => c.set n v
      | none => c) ∧
    ((parseOption s c o).2.1.inplace = true ↔ o.inplace = true ∨ s ∈ inplaceArgs) ∧
    ((parseOption s c o).2.1.recursive = true ↔ o.recursive = true ∨ s ∈ recursiveArgs) ∧
    ((parseOption s c o).2.1.verbose = true ↔ o.verbose = true ∨ s ∈ verboseArgs) := by
  have hi := switch_iff s L!"i" L!"inplace" (by decide) (by decide) (by decide) (by decide)
  have hr := switch_iff s L!"r" L!"recursive" (by decide) (by decide) (by decide) (by decide)
  have hv := switch_iff s L!"v" L!"verbose" (by decide) (by decide) (by decide) (by decide)
  change _ ↔ s ∈ inplaceArgs at hi
  change _ ↔ s ∈ recursiveArgs at hr
  change _ ↔ s ∈ verboseArgs at hv
  unfold parseOption
  rw [← hi, ← hr, ← hv]
  cases hm : matchConfigOpt s with
  | some p =>
    have hp := assigns_not_switch s p.1 p.2 ((matchConfigOpt_iff s p.1 p.2).1 hm)
    simp [hp]
  | none =>
    cases hq : matchProgramOpt s with
    | none => simp
    | some n =>
      simp only
      by_cases h1 : n = L!"i" ∨ n = L!"inplace"
      · rw [if_pos h1]
        rcases h1 with rfl | rfl <;> simp
      · rw [if_neg h1]
        by_cases h2 : n = L!"r" ∨ n = L!"recursive"
        · rw [if_pos h2]
          rcases h2 with rfl | rfl <;> simp
        · rw [if_neg h2]
          by_cases h3 : n = L!"v" ∨ n = L!"verbose"
          · rw [if_pos h3]
            rcases h3 with rfl | rfl <;> simp
          · rw [if_neg h3]
            simp [h1, h2, h3]

theorem insertStr_perm (s : Str) (l : List Str) : (insertStr s l).Perm (s :: l) := by
  induction l with
  | nil => exact List.Perm.refl _
  | cons t ts ih =>
    unfold insertStr
    split
    · exact List.Perm.refl _
    · exact (List.Perm.cons t ih).trans (List.Perm.swap s t ts)

theorem sortStrs_perm (l : List Str) : (sortStrs l).Perm l := by
  induction l with
  | nil => exact List.Perm.refl _
  | cons s ss ih => exact (insertStr_perm s _).trans (List.Perm.cons s ih)

end Luafmt
