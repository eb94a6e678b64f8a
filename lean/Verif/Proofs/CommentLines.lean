import Verif.Spec.CommentLines
import Verif.Model.Util
import Verif.Proofs.Comment

/-
Texts in which every comment begins a line.
-/
namespace Luafmt
open Spec

theorem comment_last {e : Elem} (h : e.isComment = true) : e.text.getLast? = some '\n' ∨ e.text.getLast? = some ']' := by
  cases e with
  | tok t => cases h
  | line s => left; simp [Elem.text, List.getLast?_cons, List.getLast?_append]
  | long n s => right; simp [Elem.text, closer, List.getLast?_cons, List.getLast?_append]

/-- Spaces and tabs. -/
def Tabs (s : Str) : Prop := ∀ ch ∈ s, ch = ' ' ∨ ch = '\t'

/-- The last character of a text, with a default. -/
def lastOr (x : Char) (s : Str) : Char := s.getLast?.getD x

theorem lastOr_append (x : Char) (s t : Str) : lastOr x (s ++ t) = lastOr (lastOr x s) t := by
  unfold lastOr
  rw [List.getLast?_append]
  cases t.getLast? <;> simp

theorem lastOr_split (x : Char) (g : Str) : ∃ q, [x] ++ g = q ++ [lastOr x g] := by
  rcases List.eq_nil_or_concat g with rfl | ⟨g', y, rfl⟩
  · exact ⟨[], rfl⟩
  · exact ⟨x :: g', by simp [lastOr, List.concat_eq_append]⟩

theorem indentText_level (c : Config) (lvl : Int) : indentText c lvl = indentation c lvl.toNat := by
  unfold indentText
  generalize lvl.toNat = k
  cases hs : c.str .indentationString with
  | none =>
    induction k with
    | zero => rfl
    | succ k ih => simp only [indentation, hs, Option.getD_none, List.nil_append]; exact ih
  | some s =>
    induction k with
    | zero => rfl
    | succ k ih =>
      simp only [indentation, hs, Option.getD_some, List.replicate_succ, List.flatten_cons]
      exact congrArg _ ih

variable {c : Config}

theorem indentation_blank (hh : BlankHints c) (k : Nat) : Blank (indentation c k) := by
  induction k with
  | zero => intro ch h; cases h
  | succ k ih =>
    intro ch h
    rcases List.mem_append.mp h with h | h
    · cases hs : c.str .indentationString with
      | none => rw [hs] at h; cases h
      | some s => rw [hs] at h; exact hh.hints _ (by decide) s hs ch h
    · exact ih ch h

theorem beforeComment_blank (hh : BlankHints c) : Blank (beforeComment c) := by
  unfold beforeComment
  intro ch h
  cases hs : c.str .hintBeforeComment with
  | none => rw [hs] at h; cases h
  | some s => rw [hs] at h; exact hh.hints _ (by decide) s hs ch h

theorem Spec.AtLine.prefix {P : Str} (Q : Str) (h : AtLine c P) : AtLine c (Q ++ P) := by
  obtain ⟨u, w, rfl, h⟩ := h
  exact ⟨Q ++ u, w, by simp, h⟩

theorem Spec.AtLine.drop {y : Char} {P : Str} (hy : y ≠ '\n') (h : AtLine c (y :: P)) : AtLine c P := by
  obtain ⟨u, w, e, h⟩ := h
  cases u with
  | nil => cases e; exact absurd rfl hy
  | cons z u => cases e; exact ⟨u, w, rfl, h⟩

/-- The beginning of the line is behind the last `-`. -/
theorem Spec.AtLine.cut (hh : BlankHints c) {P q : Str} (hq : '-' ∈ q) (h : AtLine c (P ++ q)) : AtLine c q := by
  obtain ⟨u, w, e, h⟩ := h
  have hw : Blank w := by
    rcases h with ⟨k, rfl⟩ | rfl
    · exact indentation_blank hh k
    · exact beforeComment_blank hh
  rcases List.append_eq_append_iff.mp e with ⟨v, rfl, rfl⟩ | ⟨v, rfl, e'⟩
  · exact ⟨v, w, rfl, h⟩
  · cases v with
    | nil => rw [List.nil_append] at e'; exact ⟨[], w, e'.symm, h⟩
    | cons y v =>
      rw [List.cons_append, List.cons.injEq] at e'
      have : '-' ∈ w := by rw [e'.2]; simp [hq]
      exact absurd (hw _ this) (by decide)

/-- `Lined c P K`: the text `K` consists of blanks and comments, and every comment begins a line if `K` stands
behind `P`. -/
inductive Lined (c : Config) : Str → Str → Prop
  | nil {P : Str} : Lined c P []
  | blank {P : Str} {ch : Char} {s : Str} : IsBlank ch → Lined c (P ++ [ch]) s → Lined c P (ch :: s)
  | comment {P : Str} {e : Elem} {s : Str} : e.Ok → e.isComment = true → AtLine c P → Lined c (P ++ e.text) s →
      Lined c P (e.text ++ s)

theorem Lined.append {P g K : Str} (h : Lined c P g) (h' : Lined c (P ++ g) K) : Lined c P (g ++ K) := by
  induction h with
  | nil => simpa using h'
  | blank hb _ ih => exact .blank hb (ih (by simpa using h'))
  | comment h1 h2 h3 _ ih => rw [List.append_assoc]; exact .comment h1 h2 h3 (ih (by simpa using h'))

theorem Lined.of_blank {P s : Str} (h : Blank s) : Lined c P s := by
  induction s generalizing P with
  | nil => exact .nil
  | cons ch s ih => exact .blank (h ch (by simp)) (ih fun y hy => h y (by simp [hy]))

/-- What stands before the text may be changed as long as no beginning of a line is lost. -/
theorem Lined.mono {P Q K : Str} (h : Lined c P K) (hPQ : ∀ a, AtLine c (P ++ a) → AtLine c (Q ++ a)) : Lined c Q K := by
  induction h generalizing Q with
  | nil => exact .nil
  | @blank P ch s hb _ ih =>
    refine .blank hb (ih fun a h => ?_)
    rw [List.append_assoc] at h ⊢
    exact hPQ _ h
  | @comment P e s h1 h2 h3 _ ih =>
    refine .comment h1 h2 (by simpa using hPQ [] (by simpa using h3)) (ih fun a h => ?_)
    rw [List.append_assoc] at h ⊢
    exact hPQ _ h

theorem Lined.prefix {P K : Str} (Q : Str) (h : Lined c P K) : Lined c (Q ++ P) K :=
  h.mono fun a ha => by rw [List.append_assoc]; exact ha.prefix Q

theorem Lined.drop {y : Char} {P K : Str} (hy : y ≠ '\n') (h : Lined c (y :: P) K) : Lined c P K :=
  h.mono fun _ ha => AtLine.drop hy ha

/-- A text that ends with the character `x`. -/
theorem Lined.after {x : Char} {g K : Str} (h : Lined c [lastOr x g] K) : Lined c ([x] ++ g) K := by
  obtain ⟨q, e⟩ := lastOr_split x g
  rw [e]
  exact h.prefix q

theorem Lined.weaken {x y : Char} {K : Str} (h : Lined c [x] K) (hx : x = '\n' → y = '\n') : Lined c [y] K := by
  by_cases e : x = '\n'
  · rw [hx e, ← e]; exact h
  · simpa using (h.drop e).prefix [y]

theorem Lined.dropTab {P s : Str} {ch : Char} (h : ch = ' ' ∨ ch = '\t') : Lined c P (s ++ [ch]) → Lined c P s := by
  intro ht
  generalize hs : s ++ [ch] = u at ht
  induction ht generalizing s with
  | nil => simp at hs
  | @blank P y u hb ht ih =>
    cases s with
    | nil => exact .nil
    | cons z s =>
      rw [List.cons_append, List.cons.injEq] at hs
      obtain ⟨rfl, hs⟩ := hs
      exact .blank hb (ih hs)
  | @comment P e u h1 h2 h3 ht ih =>
    rcases List.eq_nil_or_concat u with rfl | ⟨u', z, rfl⟩
    · exfalso
      have := congrArg List.getLast? hs
      rw [List.append_nil, List.getLast?_append] at this
      rcases comment_last h2 with h' | h' <;> rw [h'] at this <;> simp at this <;> subst this <;> revert h <;> decide
    · rw [List.concat_eq_append, ← List.append_assoc] at hs
      obtain ⟨rfl, hz⟩ := List.append_inj' hs rfl
      exact .comment h1 h2 h3 (ih (by rw [List.concat_eq_append, hz]))

theorem Lined.dropTabs {P s b : Str} (hb : Tabs b) : Lined c P (s ++ b) → Lined c P s := by
  induction b generalizing s with
  | nil => intro h; simpa using h
  | cons x b ih =>
    intro h
    rw [show s ++ x :: b = (s ++ [x]) ++ b by simp] at h
    exact (ih (fun c hx => hb c (by simp [hx])) h).dropTab (hb x (by simp))

theorem comment_text_head {e : Elem} (h : e.isComment = true) : ∃ s, e.text = '-' :: '-' :: s := by
  cases e with
  | tok => cases h
  | line s => exact ⟨_, rfl⟩
  | long n s => exact ⟨_, rfl⟩

/-- The hint before a comment at the beginning of a gap. -/
theorem Lined.hint (hh : BlankHints c) {x : Char} {K : Str} (h : Lined c [x] K) (hK : K.head? = some '-') :
    Lined c [x] (beforeComment c ++ K) := by
  generalize hP : [x] = P at h
  cases h with
  | nil => cases hK
  | @blank _ ch s hb _ =>
    cases hK
    exact absurd hb (by decide)
  | @comment _ e s h1 h2 h3 h4 =>
    subst hP
    refine Lined.append (.of_blank (beforeComment_blank hh)) (.comment h1 h2 ?_ ?_)
    · have hx : x = '\n' := by
        refine Classical.byContradiction fun hx => ?_
        obtain ⟨u, w, e, _⟩ := h3.drop hx
        simp at e
      subst hx
      exact ⟨[], beforeComment c, rfl, .inr rfl⟩
    · refine h4.mono fun a ha => ?_
      rw [List.append_assoc] at ha ⊢
      obtain ⟨s', e'⟩ := comment_text_head h2
      exact (ha.cut hh (by rw [e']; simp)).prefix _

/-! ### Comments are read in one way only -/

theorem comment_text_unique {e e' : Elem} {r r' : Str} (h : e.Ok) (h' : e'.Ok) (hc : e.isComment = true) (hc' : e'.isComment = true)
    (he : e.text ++ r = e'.text ++ r') : e.text = e'.text ∧ r = r' := by
  have key : ∀ {e : Elem} {r : Str}, e.Ok → e.isComment = true → ∃ t, e.text ++ r = '-' :: '-' :: t ∧
      (getCommentEnds ⟨0, t⟩ 0).chars.rest = r := by
    intro e r h hc
    cases e with
    | tok => cases hc
    | line s =>
      refine ⟨s ++ '\n' :: r, by simp [Elem.text], ?_⟩
      rw [getCommentEnds_line 0 s r h]
    | long n s =>
      refine ⟨opener n ++ (s ++ (closer n ++ r)), by simp [Elem.text], ?_⟩
      rw [getCommentEnds_long 0 n s r h]
  obtain ⟨t, h1, h2⟩ := key (r := r) h hc
  obtain ⟨t', h1', h2'⟩ := key (r := r') h' hc'
  rw [he, h1'] at h1
  cases h1
  have hr : r = r' := h2.symm.trans h2'
  subst hr
  exact ⟨List.append_cancel_right he, rfl⟩

/-- Every place where a comment begins is at the beginning of a line. -/
theorem Lined.at {P K : Str} (h : Lined c P K) {a b : Str} (hK : K = a ++ '-' :: '-' :: b) (ha : Gap a) : AtLine c (P ++ a) := by
  have blank : ∀ {P : Str} {ch : Char} {s : Str}, IsBlank ch → Lined c P (ch :: s) → Lined c (P ++ [ch]) s := by
    intro P ch s hb h
    generalize hK : ch :: s = K at h
    cases h with
    | nil => cases hK
    | blank _ h => cases hK; exact h
    | comment _ h2 _ _ =>
      obtain ⟨s', e'⟩ := comment_text_head h2
      rw [e'] at hK
      cases hK
      exact absurd hb (by decide)
  have comment : ∀ {P : Str} {e : Elem} {s : Str}, e.Ok → e.isComment = true → Lined c P (e.text ++ s) → AtLine c P ∧
      Lined c (P ++ e.text) s := by
    intro P e s h1 h2 h
    generalize hK : e.text ++ s = K at h
    obtain ⟨s', e'⟩ := comment_text_head h2
    cases h with
    | nil => rw [e'] at hK; cases hK
    | blank hb _ =>
      rw [e'] at hK
      cases hK
      exact absurd hb (by decide)
    | comment h1' h2' h3' h4' =>
      obtain ⟨e1, rfl⟩ := comment_text_unique h1 h1' h2 h2' hK
      rw [e1]
      exact ⟨h3', h4'⟩
  subst hK
  induction ha generalizing P with
  | nil =>
    rw [List.append_nil]
    generalize hK : [] ++ '-' :: '-' :: b = K at h
    cases h with
    | nil => cases hK
    | blank hb _ => cases hK; exact absurd hb (by decide)
    | comment _ _ h3 _ => exact h3
  | blank ch g hb _ ih =>
    have := ih (blank hb h)
    rwa [List.append_assoc] at this
  | line t g ht _ ih =>
    have := ih (comment (e := .line t) ht rfl (by simpa [Elem.text] using h)).2
    simpa [Elem.text] using this
  | long n s g ht _ ih =>
    have := ih (comment (e := .long n s) ht rfl (by simpa [Elem.text] using h)).2
    simpa [Elem.text] using this

end Luafmt
