import Verif.Model.Util

/-
Facts about newline positions used by `Verif.Props.Ranges`.
-/
namespace Luafmt

theorem newlinePositions_length (s : Str) : ∀ i, (newlinePositions i s).length = s.count '\n' := by
  induction s with
  | nil => intro i; rfl
  | cons c s ih =>
    intro i
    by_cases h : c = '\n'
    · subst h; simp [newlinePositions, ih]
    · simp [newlinePositions, h, ih]

theorem newlinePositions_get (s : Str) : ∀ (i k p : Nat), (newlinePositions i s)[k]? = some p →
    i ≤ p ∧ p - i < s.length ∧ s[p - i]? = some '\n' ∧ (s.take (p - i)).count '\n' = k := by
  induction s with
  | nil => intro i k p h; simp [newlinePositions] at h
  | cons c s ih =>
    intro i k p h
    by_cases hc : c = '\n'
    · subst hc
      simp only [newlinePositions, if_true] at h
      cases k with
      | zero => simp at h; subst h; simp
      | succ k =>
        simp only [List.getElem?_cons_succ] at h
        obtain ⟨h1, h2, h3, h4⟩ := ih (i + 1) k p h
        have e : p - i = (p - (i + 1)) + 1 := by omega
        rw [e]
        refine ⟨by omega, by simp; omega, by simpa using h3, ?_⟩
        simp [h4]
    · simp only [newlinePositions, if_neg hc] at h
      obtain ⟨h1, h2, h3, h4⟩ := ih (i + 1) k p h
      have e : p - i = (p - (i + 1)) + 1 := by omega
      rw [e]
      refine ⟨by omega, by simp; omega, by simpa using h3, ?_⟩
      simp [h4, hc]

theorem nlpos_length (s : Str) : (nlpos s).length = s.count '\n' + 2 := by
  simp [nlpos, newlinePositions_length]

/-- The entries of `nlpos`: 0, the newlines, the length. -/
theorem nlpos_get (s : Str) (k p : Nat) (h : (nlpos s)[k]? = some p) :
    (k = 0 ∧ p = 0) ∨
    (0 < k ∧ k ≤ s.count '\n' ∧ p < s.length ∧ s[p]? = some '\n' ∧ (s.take p).count '\n' = k - 1) ∨
    (k = s.count '\n' + 1 ∧ p = s.length) := by
  cases k with
  | zero => simp [nlpos] at h; exact Or.inl ⟨rfl, h.symm⟩
  | succ k =>
    right
    simp only [nlpos, List.cons_append, List.getElem?_cons_succ] at h
    by_cases hk : k < s.count '\n'
    · left
      rw [List.getElem?_append_left (by rw [newlinePositions_length]; exact hk)] at h
      obtain ⟨_, h2, h3, h4⟩ := newlinePositions_get s 0 k p h
      exact ⟨by omega, by omega, by simpa using h2, by simpa using h3, by simpa using h4⟩
    · right
      rw [List.getElem?_append_right (by rw [newlinePositions_length]; omega),
        newlinePositions_length] at h
      have h0 : k - s.count '\n' = 0 := by
        rcases Nat.eq_zero_or_pos (k - s.count '\n') with h0 | h0
        · exact h0
        · rw [List.getElem?_eq_none (by simp; omega)] at h; cases h
      rw [h0] at h
      simp at h
      exact ⟨by omega, h.symm⟩

theorem count_take_mono (s : Str) (a b : Nat) (h : a ≤ b) :
    (s.take a).count '\n' ≤ (s.take b).count '\n' := by
  have : (s.take a) = (s.take b).take a := by simp [List.take_take, Nat.min_eq_left h]
  rw [this]
  exact (List.take_sublist _ _).count_le _

end Luafmt
