import Verif.Proofs.Ranges
import Verif.Model.Formatter

/-
C10: the interval of text positions that `line_range` selects.

Lines are numbered from 1 and end at a newline or at the end of the text. The interval starts either at
position 0 or at the newline that ends the line before the first selected one, and ends at the newline
(or end of text) that ends the last selected line.
-/
namespace Luafmt

/-- Number of lines of a text. -/
def Spec.lineCount (s : Str) : Nat := s.count '\n' + 1

/-- `p` is where line `k` of the text ends: at a newline, or at the end of the text. -/
def Spec.EndsLine (s : Str) (k p : Nat) : Prop :=
  (s[p]? = some '\n' ∨ p = s.length) ∧ (s.take p).count '\n' + 1 = k

/-- `p` is where the interval for a selection that starts with line `k` begins. -/
def Spec.BeforeLine (s : Str) (k p : Nat) : Prop :=
  (k = 1 ∧ p = 0) ∨ (2 ≤ k ∧ s[p]? = some '\n' ∧ (s.take p).count '\n' + 2 = k)

open Spec

private theorem nlpos_some (s : Str) (k : Nat) (h : k < s.count '\n' + 2) : ∃ p, (nlpos s)[k]? = some p :=
  ⟨_, List.getElem?_eq_getElem (by rw [nlpos_length]; exact h)⟩

private theorem nlpos_endsLine (s : Str) (k p : Nat) (hk : 0 < k) (h : (nlpos s)[k]? = some p) :
    EndsLine s k p ∧ p ≤ s.length := by
  rcases nlpos_get s k p h with ⟨h1, _⟩ | ⟨_, _, h3, h4, h5⟩ | ⟨h1, h2⟩
  · omega
  · exact ⟨⟨Or.inl h4, by omega⟩, by omega⟩
  · subst h2; exact ⟨⟨Or.inr rfl, by simp [h1]⟩, Nat.le_refl _⟩

private theorem nlpos_before (s : Str) (k p : Nat) (hk : 0 < k) (hk' : k ≤ lineCount s)
    (h : (nlpos s)[k - 1]? = some p) : BeforeLine s k p ∧ p ≤ s.length := by
  unfold lineCount at hk'
  rcases nlpos_get s (k - 1) p h with ⟨h1, h2⟩ | ⟨_, _, h3, h4, h5⟩ | ⟨h1, h2⟩
  · exact ⟨Or.inl ⟨by omega, h2⟩, by omega⟩
  · exact ⟨Or.inr ⟨by omega, h4, by omega⟩, by omega⟩
  · omega

private theorem before_le_end (s : Str) (k j p q : Nat) (h : BeforeLine s k p) (h' : EndsLine s j q)
    (hkj : k ≤ j) : p ≤ q := by
  rcases h with ⟨_, h⟩ | ⟨_, h1, h2⟩
  · omega
  · rcases Nat.lt_or_ge q p with hlt | hge
    · have := count_take_mono s q p (by omega)
      have := h'.2
      omega
    · exact hge

/-- The two ends of the interval, for the line numbers that `lineRangeToPosRange` really uses. -/
private theorem lineRange_cases (s : Str) (l r : Nat) :
    ∃ a b left right, lineRangeToPosRange s (some (l, r)) = .ok (some (a, b)) ∧
      BeforeLine s left a ∧ EndsLine s right b ∧ left ≤ right ∧ b ≤ s.length ∧
      left = (if 0 < l ∧ l ≤ r ∧ l ≤ lineCount s then l else 1) ∧
      right = (if 0 < r ∧ l ≤ r ∧ r ≤ lineCount s then r else lineCount s) := by
  have hlen : (nlpos s).length = lineCount s + 1 := by rw [nlpos_length]; rfl
  have hlc : 0 < lineCount s := Nat.succ_pos _
  have eL : (0 < l ∧ l ≤ r ∧ l < (nlpos s).length) ↔ (0 < l ∧ l ≤ r ∧ l ≤ lineCount s) := by
    rw [hlen]; omega
  have eR : (0 < r ∧ l ≤ r ∧ r < (nlpos s).length) ↔ (0 < r ∧ l ≤ r ∧ r ≤ lineCount s) := by
    rw [hlen]; omega
  simp only [lineRangeToPosRange, eL, eR]
  have hsub : (nlpos s).length - 1 = lineCount s := by omega
  rw [hsub]
  generalize hleft : (if 0 < l ∧ l ≤ r ∧ l ≤ lineCount s then l else 1) = left
  generalize hright : (if 0 < r ∧ l ≤ r ∧ r ≤ lineCount s then r else lineCount s) = right
  have h1 : 0 < left ∧ left ≤ lineCount s := by
    rw [← hleft]; split <;> omega
  have h2 : 0 < right ∧ right ≤ lineCount s := by
    rw [← hright]; split <;> omega
  have h3 : left ≤ right := by
    rw [← hleft, ← hright]; split <;> split <;> omega
  obtain ⟨a, ha⟩ := nlpos_some s (left - 1) (by have := h1.2; unfold lineCount at this; omega)
  obtain ⟨b, hb⟩ := nlpos_some s right (by have := h2.2; unfold lineCount at this; omega)
  obtain ⟨hb1, hb2⟩ := nlpos_endsLine s right b h2.1 hb
  obtain ⟨ha1, _⟩ := nlpos_before s left a h1.1 h1.2 ha
  exact ⟨a, b, left, right, by simp [ha, hb], ha1, hb1, h3, hb2, rfl, rfl⟩

/-- C10. Whatever the numbers are, the lookup succeeds, the interval is ordered and inside the text,
starts at 0 or at the newline before a line, and ends at a line end. -/
theorem C10_interval_is_sane (src : Str) (l r : Nat) :
    ∃ a b, lineRangeToPosRange src (some (l, r)) = .ok (some (a, b)) ∧ a ≤ b ∧ b ≤ src.length ∧
      (a = 0 ∨ src[a]? = some '\n') ∧ (b = src.length ∨ src[b]? = some '\n') := by
  obtain ⟨a, b, left, right, h, ha, hb, hlr, hb', _⟩ := lineRange_cases src l r
  refine ⟨a, b, h, before_le_end src left right a b ha hb hlr, hb', ?_, hb.1.symm⟩
  rcases ha with ⟨_, h⟩ | ⟨_, h, _⟩
  · exact Or.inl h
  · exact Or.inr h

/-- C10. Usable line numbers select exactly these lines. -/
theorem C10_usable_numbers_select_their_lines (src : Str) (l r : Nat) (hl : 1 ≤ l) (hlr : l ≤ r)
    (hr : r ≤ lineCount src) :
    ∃ a b, lineRangeToPosRange src (some (l, r)) = .ok (some (a, b)) ∧
      BeforeLine src l a ∧ EndsLine src r b := by
  obtain ⟨a, b, left, right, h, ha, hb, _, _, e1, e2⟩ := lineRange_cases src l r
  rw [if_pos (by omega)] at e1 e2
  subst e1 e2
  exact ⟨a, b, h, ha, hb⟩

/-- C10. An unusable first number (0, behind the last line, or larger than the second) means the start
of the text. -/
theorem C10_unusable_first_number (src : Str) (l r : Nat) (h : l = 0 ∨ r < l ∨ lineCount src < l) :
    ∃ b, lineRangeToPosRange src (some (l, r)) = .ok (some (0, b)) := by
  obtain ⟨a, b, left, right, h', ha, _, _, _, e1, _⟩ := lineRange_cases src l r
  rw [if_neg (by omega)] at e1
  subst e1
  rcases ha with ⟨_, rfl⟩ | ⟨h2, _⟩
  · exact ⟨b, h'⟩
  · omega

/-- C10. An unusable second number (0, behind the last line, or smaller than the first) means the end of
the text. -/
theorem C10_unusable_second_number (src : Str) (l r : Nat) (h : r = 0 ∨ r < l ∨ lineCount src < r) :
    ∃ a, lineRangeToPosRange src (some (l, r)) = .ok (some (a, src.length)) := by
  obtain ⟨a, b, left, right, h', _, hb, _, hle, _, e2⟩ := lineRange_cases src l r
  rw [if_neg (by omega)] at e2
  subst e2
  have : b = src.length := by
    rcases hb with ⟨hn | hn, hc⟩
    · exfalso
      have hlt : b < src.length := by
        rcases Nat.lt_or_ge b src.length with h | h
        · exact h
        · rw [List.getElem?_eq_none h] at hn; cases hn
      have hm := count_take_mono src (b + 1) src.length hlt
      rw [List.take_add_one, hn] at hm
      simp [lineCount] at hm hc
      omega
    · exact hn
  subst this
  exact ⟨a, h'⟩

/-- C10. Without a line range nothing is selected. -/
theorem C10_no_range (src : Str) : lineRangeToPosRange src none = .ok none := rfl

/-- Lines 2 to 3 of a text with four lines; position 5 is the newline before line 2. -/
example : lineRangeToPosRange L!"a = 1\nb = 2\nc = 3\nd = 4" (some (2, 3)) = .ok (some (5, 17)) ∧
    1 ≤ 2 ∧ 3 ≤ lineCount L!"a = 1\nb = 2\nc = 3\nd = 4" := by decide +kernel
/-- Unusable numbers. -/
example : lineRangeToPosRange L!"a = 1\nb = 2\n" (some (9, 7)) = .ok (some (0, 12)) ∧ 7 < 9 := by
  decide +kernel

end Luafmt
