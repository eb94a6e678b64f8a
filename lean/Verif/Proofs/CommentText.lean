import Verif.Spec.Elements
import Verif.Proofs.Seek

/-
What the options for comment texts do to a comment.
-/
namespace Luafmt
open Spec

/-! ### Trimming -/

/-- A text of white space. -/
def White (s : Str) : Prop := ∀ ch ∈ s, isWhite ch = true

theorem isWhite_of_blank {ch : Char} (h : IsBlank ch) : isWhite ch = true := by
  rcases h with rfl | rfl | rfl | rfl <;> decide

theorem White.of_blank {s : Str} (h : Blank s) : White s := fun ch hc => isWhite_of_blank (h ch hc)

theorem dropWhile_white {a : Str} (h : White a) (s : Str) : (a ++ s).dropWhile isWhite = s.dropWhile isWhite := by
  induction a with
  | nil => rfl
  | cons x a ih =>
    simp only [List.cons_append, List.dropWhile_cons, h x (by simp), if_true]
    exact ih (fun ch hc => h ch (by simp [hc]))

theorem trimStart_padL {a : Str} (h : White a) (s : Str) : trimStart (a ++ s) = trimStart s := dropWhile_white h s

theorem trimEnd_padR {b : Str} (h : White b) (s : Str) : trimEnd (s ++ b) = trimEnd s := by
  unfold trimEnd dropEndWhile
  rw [List.reverse_append, dropWhile_white (fun ch hc => h ch (by simpa using hc))]

theorem trimStart_split (s : Str) : ∃ w, White w ∧ s = w ++ trimStart s := by
  refine ⟨s.takeWhile isWhite, ?_, (List.takeWhile_append_dropWhile).symm⟩
  induction s with
  | nil => simp [White]
  | cons x s ih =>
    intro ch hc
    rw [List.takeWhile_cons] at hc
    split at hc
    · next hx =>
      rcases List.mem_cons.mp hc with rfl | hc
      · exact hx
      · exact ih ch hc
    · simp at hc

theorem trimEnd_split (s : Str) : ∃ w, White w ∧ s = trimEnd s ++ w := by
  obtain ⟨w, h1, h2⟩ := trimStart_split s.reverse
  refine ⟨w.reverse, fun ch hc => h1 ch (by simpa using hc), ?_⟩
  have := congrArg List.reverse h2
  simp only [List.reverse_reverse, List.reverse_append] at this
  exact this

theorem trimStart_append (s b : Str) : trimStart (s ++ b) = if trimStart s = [] then trimStart b else trimStart s ++ b := by
  induction s with
  | nil => rfl
  | cons x s ih =>
    simp only [trimStart, List.cons_append, List.dropWhile_cons] at ih ⊢
    split
    · exact ih
    · simp

theorem trim_padL {a : Str} (h : White a) (s : Str) : trim (a ++ s) = trim s := by
  unfold trim; rw [trimStart_padL h]

theorem trim_padR {b : Str} (h : White b) (s : Str) : trim (s ++ b) = trim s := by
  unfold trim
  rw [trimStart_append]
  split
  · next hs =>
    rw [hs]
    have := trimStart_padL h []
    rw [List.append_nil] at this
    rw [this]
    rfl
  · exact trimEnd_padR h _

theorem trim_trimStart (s : Str) : trim (trimStart s) = trim s := by
  obtain ⟨w, h1, h2⟩ := trimStart_split s
  conv => rhs; rw [h2]
  rw [trim_padL h1]

theorem trim_trimEnd (s : Str) : trim (trimEnd s) = trim s := by
  obtain ⟨w, h1, h2⟩ := trimEnd_split s
  conv => rhs; rw [h2]
  rw [trim_padR h1]

/-! ### Bodies of long comments -/

theorem closer_head {n : Nat} {ch : Char} {s : Str} (h : closer n <+: ch :: s) : ch = ']' := by
  obtain ⟨r, h⟩ := h
  simp only [closer, List.cons_append, List.cons.injEq] at h
  exact h.1.symm

theorem closer_mem {n : Nat} {ch : Char} (h : ch ∈ closer n) : ch = ']' ∨ ch = '=' := by
  simp only [closer, List.mem_cons, List.mem_append, List.mem_replicate, List.not_mem_nil, or_false] at h
  rcases h with h | h | h
  · exact .inl h
  · exact .inr h.2
  · exact .inl h

theorem isWhite_closer {ch : Char} (h : isWhite ch = true) : ch ≠ ']' ∧ ch ≠ '=' ∧ ch ≠ '\\' := by
  refine ⟨?_, ?_, ?_⟩ <;> (rintro rfl; revert h; decide)

theorem LongBody.drop {n : Nat} {w : Str} (hw : White w) : ∀ {p : Bool} {s : Str},
    LongBody n p (w ++ s) → (w = [] → p = false) → LongBody n false s := by
  induction w with
  | nil =>
    intro p s h hp
    have := hp rfl
    subst this
    simpa using h
  | cons x w ih =>
    intro p s h _
    simp only [List.cons_append, LongBody] at h
    have hx := (isWhite_closer (hw x (by simp))).2.2
    refine ih (fun ch hc => hw ch (by simp [hc])) h.2 ?_
    intro _
    simpa using hx

theorem LongBody.pad {n : Nat} {w : Str} (hw : White w) : ∀ {p : Bool} {s : Str},
    LongBody n false s → (w = [] → p = false) → LongBody n p (w ++ s) := by
  induction w with
  | nil =>
    intro p s h hp
    have := hp rfl
    subst this
    simpa using h
  | cons x w ih =>
    intro p s h _
    have hx := isWhite_closer (hw x (by simp))
    simp only [List.cons_append, LongBody]
    refine ⟨?_, ih (fun ch hc => hw ch (by simp [hc])) h ?_⟩
    · rintro ⟨_, h⟩
      exact hx.1 (closer_head h)
    · intro _
      simpa using hx.2.2

theorem LongBody.replaceEnd {n : Nat} {b q : Str} (hq : White q) (hne : q ≠ []) : ∀ {a : Str} {p : Bool},
    LongBody n p (a ++ b) → LongBody n p (a ++ q) := by
  intro a
  induction a with
  | nil =>
    intro p h
    have := LongBody.pad hq (p := p) (n := n) (s := []) rfl (fun e => absurd e hne)
    simpa using this
  | cons x a ih =>
    intro p h
    simp only [List.cons_append, LongBody] at h ⊢
    refine ⟨?_, ih h.2⟩
    rintro ⟨hp, hc⟩
    refine h.1 ⟨hp, ?_⟩
    obtain ⟨y, q', rfl⟩ := List.exists_cons_of_ne_nil hne
    have hy := isWhite_closer (hq y (by simp))
    obtain ⟨r, hr⟩ := hc
    have hr' : closer n ++ r = (x :: a) ++ (y :: (q' ++ closer n)) := by rw [hr]; simp
    rcases List.append_eq_append_iff.mp hr' with ⟨d, h1, h2⟩ | ⟨d, h1, h2⟩
    · refine ⟨d ++ (b ++ closer n), ?_⟩
      rw [← List.append_assoc, ← h1]
      simp
    · cases d with
      | nil =>
        refine ⟨b ++ closer n, ?_⟩
        rw [List.append_nil] at h1
        rw [h1]; simp
      | cons z d =>
        have hz : z = y := by
          simp only [List.cons_append, List.cons.injEq] at h2
          exact h2.1.symm
        have : z ∈ closer n := by rw [h1]; simp
        rcases closer_mem this with e | e
        · exact absurd (hz ▸ e) hy.1
        · exact absurd (hz ▸ e) hy.2.1

theorem LongBody.trimStart {n : Nat} {s : Str} (h : LongBody n false s) : LongBody n false (trimStart s) := by
  obtain ⟨w, h1, h2⟩ := trimStart_split s
  rw [h2] at h
  exact LongBody.drop h1 h (fun _ => rfl)

theorem LongBody.trimEnd_pad {n : Nat} {s q : Str} (hq : White q) (hne : q ≠ []) (h : LongBody n false s) :
    LongBody n false (trimEnd s ++ q) := by
  obtain ⟨w, h1, h2⟩ := trimEnd_split s
  rw [h2] at h
  exact LongBody.replaceEnd hq hne h

/-! ### Texts of one-line comments -/

theorem trimStart_mem {ch : Char} {s : Str} (h : ch ∈ trimStart s) : ch ∈ s := by
  obtain ⟨w, _, h2⟩ := trimStart_split s
  rw [h2]; simp [h]

theorem LineText.pad {p s : Str} (hs : LineText s) (hp : Blank p) (hne : p ≠ []) (hn : '\n' ∉ p) :
    LineText (p ++ trimStart s) := by
  refine ⟨?_, ?_⟩
  · simp only [List.mem_append, not_or]
    exact ⟨hn, fun h => hs.1 (trimStart_mem h)⟩
  · intro n h
    obtain ⟨y, p', rfl⟩ := List.exists_cons_of_ne_nil hne
    obtain ⟨r, hr⟩ := h
    simp only [opener, List.cons_append, List.cons.injEq] at hr
    have := hp y (by simp)
    rw [← hr.1] at this
    revert this; decide

end Luafmt
