import Verif.Proofs.CommentText
import Verif.Proofs.CommentLines
import Verif.Proofs.GapLex
import Verif.Proofs.Slice
import Verif.Proofs.Items

/-
What the gap printer writes: the comments of the gap, rewritten as the options say, with blanks between them. With
a line range parts of the gap may be copied.
-/
namespace Luafmt
open Spec

/-! ### Texts -/

theorem Spec.Text.append {es fs : List Elem} {s t : Str} (h : Text es s) (h' : Text fs t) : Text (es ++ fs) (s ++ t) := by
  induction h with
  | nil => exact h'
  | blank hb _ ih => exact .blank hb ih
  | elem he _ ih => rw [List.append_assoc]; exact .elem he ih

theorem Spec.Text.of_blank {s : Str} (h : Blank s) : Text [] s := by
  induction s with
  | nil => exact .nil
  | cons ch s ih => exact .blank (h ch (by simp)) (ih fun c hc => h c (by simp [hc]))

theorem Spec.Text.one {e : Elem} (h : e.Ok) : Text [e] e.text := by
  have := Text.elem h .nil
  simpa using this

/-- Comments only. -/
def Comments (es : List Elem) : Prop := ∀ e ∈ es, e.isComment = true

theorem Comments.append {es fs : List Elem} (h : Comments es) (h' : Comments fs) : Comments (es ++ fs) := by
  intro e he
  rcases List.mem_append.mp he with he | he
  · exact h e he
  · exact h' e he

theorem Spec.Text.dropTab {es : List Elem} {s : Str} {ch : Char} (hc : Comments es) (h : ch = ' ' ∨ ch = '\t') :
    Text es (s ++ [ch]) → Text es s := by
  intro ht
  generalize hs : s ++ [ch] = u at ht
  induction ht generalizing s with
  | nil => simp at hs
  | @blank es y u hb ht ih =>
    cases s with
    | nil =>
      simp only [List.nil_append, List.cons.injEq] at hs
      rw [← hs.2] at ht
      exact ht
    | cons z s =>
      simp only [List.cons_append, List.cons.injEq] at hs
      rw [hs.1]
      exact .blank hb (ih hc hs.2)
  | @elem e es u he ht ih =>
    by_cases hu : u = []
    · subst hu
      rw [List.append_nil] at hs
      have h1 := comment_last (hc e (by simp))
      rw [← hs] at h1
      simp at h1
      rcases h with rfl | rfl <;> (rcases h1 with h1 | h1 <;> exact absurd h1 (by decide))
    · obtain ⟨u', z, rfl⟩ : ∃ u' z, u = u' ++ [z] := ⟨u.dropLast, u.getLast hu, (List.dropLast_concat_getLast hu).symm⟩
      rw [← List.append_assoc] at hs
      obtain ⟨h1, h2⟩ := List.append_inj' hs rfl
      simp only [List.cons.injEq, and_true] at h2
      rw [h1]
      refine .elem he (ih (fun e he => hc e (by simp [he])) ?_)
      rw [h2]

theorem Spec.Text.dropTabs {es : List Elem} {s b : Str} (hc : Comments es) (hb : Tabs b) :
    Text es (s ++ b) → Text es s := by
  induction b generalizing s with
  | nil => intro h; simpa using h
  | cons x b ih =>
    intro h
    rw [show s ++ x :: b = (s ++ [x]) ++ b by simp] at h
    exact (ih (fun c hx => hb c (by simp [hx])) h).dropTab hc (hb x (by simp))

/-! ### Rewriting -/

theorem Spec.BeforeCurly.append {es fs : List Elem} (h : BeforeCurly es) : BeforeCurly (es ++ fs) := by
  induction es with
  | nil => cases h
  | cons e es ih => cases e <;> first | exact h | exact ih h

theorem Spec.Rewrites.append {c : Config} {es es' fs fs' : List Elem} (h : Rewrites c es es') (h' : Rewrites c fs fs') :
    Rewrites c (es ++ fs) (es' ++ fs') := by
  induction h with
  | nil => exact h'
  | tok ht _ ih => exact .tok ht ih
  | comment h1 h2 _ ih => exact .comment h1 h2 ih
  | noComment h1 h2 _ ih => exact .noComment h1 h2 ih
  | kept h1 h2 _ ih => exact .kept h1 h2 ih
  | dropSep h1 h2 h3 _ ih => exact .dropSep h1 (BeforeCurly.append h2) h3 ih
  | addSep h1 h2 h3 h4 _ ih => exact .addSep h1 (BeforeCurly.append h2) h3 h4 ih

/-! ### What is known about the text written for a part of a gap -/

/-- `NL` holds if newlines may be written. -/
structure Allow (c : Config) (NL : Prop) : Prop where
  opt : NlOpt c → NL
  all : c.bool .removeAllNewlines ≠ some true → NL
  com : c.bool .removeComments ≠ some true → NL
  hint : ∀ o ∈ hintOptions, ∀ s, c.str o = some s → '\n' ∈ s → NL

/-- The options for newlines at comments. -/
def commentNewlines : List NOpt := [.newlineFormatOnelineComment, .newlineFormatMultilineComment,
  .newlineFormatFirstOnelineComment, .newlineFormatFirstMultilineComment]

/-- The same inside gaps. -/
structure AllowGap (c : Config) (NL : Prop) : Prop where
  nlc : (∃ o ∈ commentNewlines, c.num o = some 1) → NL
  all : c.bool .removeAllNewlines ≠ some true → NL
  com : c.bool .removeComments ≠ some true → NL
  hint : ∀ o ∈ hintOptions, ∀ s, c.str o = some s → '\n' ∈ s → NL

theorem Allow.gap {c : Config} {NL : Prop} (h : Allow c NL) : AllowGap c NL := by
  refine ⟨fun ⟨o, ho, hn⟩ => h.opt (.inl ⟨o, 1, hn, ?_⟩), h.all, h.com, h.hint⟩
  simp only [commentNewlines, List.mem_cons, List.not_mem_nil, or_false] at ho
  rcases ho with rfl | rfl | rfl | rfl <;> rfl

/-- The written text starts like the source text, or with a blank. -/
def HeadRel (s K : Str) : Prop :=
  (K = [] ∧ s = []) ∨ (∃ ch, K.head? = some ch ∧ IsBlank ch) ∨ (K ≠ [] ∧ K.head? = s.head?)

/-- The text `K` is written behind a text that ends with `x` for the source text `s` with comments `es`; it has
the comments `es'`. -/
structure Wrote0 (c : Config) (NL : Prop) (x : Char) (s : Str) (es es' : List Elem) (K : Str) : Prop where
  text : Text es' K
  rew : Rewrites c es es'
  com : Comments es'
  nl : ¬ NL → '\n' ∉ K
  head : Shrinks c ∨ x = '\n' ∨ HeadRel s K

/-- The same; the comments begin lines if they should. -/
structure Wrote (c : Config) (NL : Prop) (x : Char) (s : Str) (es es' : List Elem) (K : Str) : Prop
    extends Wrote0 c NL x s es es' K where
  own : CommentLines c → Lined c [x] K

variable {c : Config} {NL : Prop}

theorem Wrote.nil {x : Char} : Wrote c NL x [] [] [] [] :=
  ⟨⟨.nil, .nil, fun _ h => (by cases h), fun _ => (by simp), .inr (.inr (.inl ⟨rfl, rfl⟩))⟩, fun _ => .nil⟩

theorem HeadRel.extend {s g t K : Str} (h : HeadRel s g) (hne : g ≠ []) : HeadRel (s ++ t) (g ++ K) := by
  obtain ⟨y, g', rfl⟩ := List.exists_cons_of_ne_nil hne
  rcases h with ⟨h, _⟩ | ⟨ch, h, hb⟩ | ⟨_, h⟩
  · cases h
  · exact .inr (.inl ⟨ch, by simpa using h, hb⟩)
  · refine .inr (.inr ⟨by simp, ?_⟩)
    cases s with
    | nil => cases h
    | cons z s => simpa using h

theorem Wrote0.append {x : Char} {s t : Str} {es es' fs fs' : List Elem} {g K : Str}
    (h : Wrote0 c NL x s es es' g) (h' : Wrote0 c NL (lastOr x g) t fs fs' K) :
    Wrote0 c NL x (s ++ t) (es ++ fs) (es' ++ fs') (g ++ K) where
  text := h.text.append h'.text
  rew := h.rew.append h'.rew
  com := h.com.append h'.com
  nl hn := by
    rw [List.mem_append]
    exact fun e => e.elim (h.nl hn) (h'.nl hn)
  head := by
    rcases h.head with hh | hh | hh
    · exact .inl hh
    · exact .inr (.inl hh)
    · by_cases hg : g = []
      · subst hg
        rcases hh with ⟨_, rfl⟩ | ⟨_, h1, _⟩ | ⟨h1, _⟩
        · simpa [lastOr] using h'.head
        · cases h1
        · exact absurd rfl h1
      · exact .inr (.inr (hh.extend hg))

theorem Wrote.append {x : Char} {s t : Str} {es es' fs fs' : List Elem} {g K : Str}
    (h : Wrote c NL x s es es' g) (h' : Wrote c NL (lastOr x g) t fs fs' K) :
    Wrote c NL x (s ++ t) (es ++ fs) (es' ++ fs') (g ++ K) :=
  ⟨h.toWrote0.append h'.toWrote0, fun ho => (h.own ho).append (h'.own ho).after⟩

/-- Blanks of the source are copied. -/
theorem Wrote.keep {x : Char} {s : Str} (h : Blank s) (hn : '\n' ∈ s → NL) : Wrote c NL x s [] [] s where
  text := .of_blank h
  rew := .nil
  com _ h := by cases h
  nl a b := a (hn b)
  head := by
    right; right
    by_cases hs : s = []
    · exact .inl ⟨hs, hs⟩
    · exact .inr (.inr ⟨hs, rfl⟩)
  own _ := .of_blank h

/-- Blanks are written instead of blanks. -/
theorem Wrote.ins {x : Char} {s h : Str} (hb : Blank h) (hn : '\n' ∈ h → NL)
    (hs : s = [] ∨ x = '\n' ∨ Shrinks c ∨ h ≠ []) : Wrote c NL x s [] [] h where
  text := .of_blank hb
  rew := .nil
  com _ h := by cases h
  nl a b := a (hn b)
  head := by
    by_cases hh : h = []
    · rcases hs with hs | hs | hs | hs
      · exact .inr (.inr (.inl ⟨hh, hs⟩))
      · exact .inr (.inl hs)
      · exact .inl hs
      · exact absurd hh hs
    · obtain ⟨y, h', rfl⟩ := List.exists_cons_of_ne_nil hh
      exact .inr (.inr (.inr (.inl ⟨y, rfl, hb y (by simp)⟩)))
  own _ := .of_blank hb

theorem Wrote.weaken {x y : Char} {s : Str} {es es' : List Elem} {K : Str} (h : Wrote c NL x s es es' K)
    (hx : x = '\n' → y = '\n') : Wrote c NL y s es es' K :=
  { h with head := h.head.imp id (Or.imp hx id), own := fun ho => (h.own ho).weaken hx }

/-- What must hold if there is a line range: newlines may be written, and characters are bytes. -/
structure Ranged (c : Config) (NL : Prop) (env : Env) : Prop where
  line : c.lineRange ≠ none
  nl : NL
  ascii : ∀ ch ∈ env.buf, ch.utf8Size = 1

theorem Spec.Rewrites.same (hr : c.lineRange ≠ none) {es : List Elem} (h : Comments es) : Rewrites c es es := by
  induction es with
  | nil => exact .nil
  | cons e es ih => exact .kept hr (h e (by simp)) (ih fun e he => h e (by simp [he]))

/-- A part of the gap is copied. -/
theorem Wrote.copy (hr : c.lineRange ≠ none) (hn : NL) {x : Char} {s : Str} {es : List Elem} (ht : Text es s)
    (hc : Comments es) : Wrote c NL x s es es s where
  text := ht
  rew := .same hr hc
  com := hc
  nl h := absurd hn h
  own h := absurd h.range hr
  head := by
    right; right
    by_cases hs : s = []
    · exact .inl ⟨hs, hs⟩
    · exact .inr (.inr ⟨hs, rfl⟩)

/-! ### Newlines -/

/-- The effect of a newline that is written for a gap whose own text is `K`. -/
def NlEff (K f r : Str) (ind : Str) : Prop :=
  ∃ t b, K = t ++ b ∧ Tabs b ∧
    ((t ≠ [] ∧ ((t.getLast? = some '\n' ∧ r = f ++ (t ++ ind)) ∨ r = f ++ (t ++ ('\n' :: ind)))) ∨
     (t = [] ∧ ∃ a d, f = a ++ d ∧ Tabs d ∧ (d ≠ [] → a ≠ []) ∧
        ((a.getLast? = some '\n' ∧ r = a ++ ind) ∨ r = a ++ ('\n' :: ind))))

theorem NlEff.lift {K f r ind : Str} (p : Str) (h : NlEff K f r ind) : NlEff K (p ++ f) (p ++ r) ind := by
  obtain ⟨t, b, h1, h2, h3⟩ := h
  refine ⟨t, b, h1, h2, ?_⟩
  rcases h3 with ⟨ht, h⟩ | ⟨ht, a, d, h4, h5, h6, h7⟩
  · refine .inl ⟨ht, ?_⟩
    rcases h with ⟨h, rfl⟩ | rfl
    · exact .inl ⟨h, by simp⟩
    · exact .inr (by simp)
  · refine .inr ⟨ht, p ++ a, d, by simp [h4], h5, fun h => by simp [h6 h], ?_⟩
    rcases h7 with ⟨h, rfl⟩ | rfl
    · exact .inl ⟨by rw [List.getLast?_append, h]; rfl, by simp⟩
    · exact .inr (by simp)

/-- A line begins behind a newline that is written. -/
theorem NlEff.atLine {K f r : Str} {lvl : Int} (h : NlEff K f r (indentText c lvl)) : AtLine c r := by
  rw [indentText_level] at h
  have key : ∀ {a : Str}, a.getLast? = some '\n' → AtLine c (a ++ indentation c lvl.toNat) := by
    intro a ha
    obtain ⟨b, rfl⟩ := List.getLast?_eq_some_iff.mp ha
    exact ⟨b, indentation c lvl.toNat, by simp, .inl ⟨_, rfl⟩⟩
  obtain ⟨t, b, _, _, h3⟩ := h
  rcases h3 with ⟨_, ⟨h, rfl⟩ | rfl⟩ | ⟨_, a, d, _, _, _, ⟨h, rfl⟩ | rfl⟩
  · exact (key h).prefix f
  · exact ⟨f ++ t, indentation c lvl.toNat, by simp, .inl ⟨_, rfl⟩⟩
  · exact key h
  · exact ⟨a, _, rfl, .inl ⟨_, rfl⟩⟩

theorem trimEndSpaces_split (s : Str) : ∃ b, Tabs b ∧ s = trimEndSpaces s ++ b := by
  unfold trimEndSpaces dropEndWhile
  refine ⟨(s.reverse.takeWhile fun c => c == ' ' || c == '\t').reverse, ?_, ?_⟩
  · intro ch hc
    rw [List.mem_reverse] at hc
    generalize s.reverse = u at hc
    induction u with
    | nil => cases hc
    | cons y u ih =>
      rw [List.takeWhile_cons] at hc
      split at hc
      · next hy =>
        rcases List.mem_cons.mp hc with rfl | hc
        · simpa using hy
        · exact ih hc
      · cases hc
  · rw [← List.reverse_append, List.takeWhile_append_dropWhile, List.reverse_reverse]

theorem getLast?_split {s : Str} {ch : Char} (h : s.getLast? = some ch) : s = s.dropLast ++ [ch] := by
  have hne : s ≠ [] := by rintro rfl; cases h
  rw [List.getLast?_eq_some_getLast hne, Option.some.injEq] at h
  rw [← h]
  exact (List.dropLast_concat_getLast hne).symm

theorem byteLen_tab {ch : Char} (h : ch = ' ' ∨ ch = '\t') : byteLen [ch] = 1 := by
  rcases h with rfl | rfl <;> rfl

/-- `ifNewLine` with a newline. -/
theorem ifNewLine_eff {lvl : Int} {w : Str → Str → Res Str} {h f r : Str}
    (hw : ifNewLine c lvl true w h f = .ok r) : ∃ K, w [] [] = .ok K ∧ NlEff K f r (indentText c lvl) := by
  simp only [ifNewLine, if_true, Res.bind_eq_ok, Res.pure_eq] at hw
  obtain ⟨K, hK, hr⟩ := hw
  refine ⟨K, hK, ?_⟩
  obtain ⟨b, hb, hs⟩ := trimEndSpaces_split K
  refine ⟨trimEndSpaces K, b, hs, hb, ?_⟩
  cases hr
  by_cases ht : trimEndSpaces K = []
  · refine .inr ⟨ht, ?_⟩
    rw [if_neg (by simp [ht])]
    by_cases hp : 1 < byteLen f ∧ (f.getLast? = some ' ' ∨ f.getLast? = some '\t')
    · rw [if_pos hp]
      obtain ⟨ch, hch, hl⟩ : ∃ ch, (ch = ' ' ∨ ch = '\t') ∧ f.getLast? = some ch := by
        rcases hp.2 with h | h
        · exact ⟨_, .inl rfl, h⟩
        · exact ⟨_, .inr rfl, h⟩
      have hsp := getLast?_split hl
      refine ⟨f.dropLast, [ch], hsp, fun x hx => by simp at hx; subst hx; exact hch, ?_, ?_⟩
      · intro _ he
        rw [he] at hsp
        rw [hsp] at hp
        simp only [List.nil_append, byteLen_tab hch] at hp
        exact absurd hp.1 (by decide)
      · split
        · next hl => exact .inl ⟨hl, rfl⟩
        · exact .inr (by simp)
    · rw [if_neg hp]
      refine ⟨f, [], by simp, fun _ h => (by cases h), fun h => absurd rfl h, ?_⟩
      split
      · next hl => exact .inl ⟨hl, rfl⟩
      · exact .inr (by simp)
  · refine .inl ⟨ht, ?_⟩
    rw [if_pos ht]
    split
    · next hl => exact .inl ⟨hl, by simp⟩
    · exact .inr (by simp)

/-- A text whose end is not trimmed. -/
def Firm (P : Str) : Prop := (P.getLast? ≠ some ' ' ∧ P.getLast? ≠ some '\t') ∨ P.length ≤ 1

theorem firm_split {P g a d : Str} (hP : Firm P) (h : P ++ g = a ++ d) (hd : Tabs d) (hn : d ≠ [] → a ≠ []) :
    ∃ a', a = P ++ a' ∧ g = a' ++ d := by
  rcases List.append_eq_append_iff.mp h with ⟨u, h1, h2⟩ | ⟨u, h1, h2⟩
  · exact ⟨u, h1, h2⟩
  · cases u with
    | nil => exact ⟨[], by simpa using h1.symm, by simpa using h2.symm⟩
    | cons y u =>
      exfalso
      rcases hP with hP | hP
      · obtain ⟨u', z, hu⟩ : ∃ u' z, y :: u = u' ++ [z] :=
          ⟨(y :: u).dropLast, (y :: u).getLast (by simp), (List.dropLast_concat_getLast (by simp)).symm⟩
        have hz : z ∈ d := by rw [h2, hu]; simp
        rw [h1, hu] at hP
        rcases hd z hz with rfl | rfl
        · exact hP.1 (by simp)
        · exact hP.2 (by simp)
      · rw [h1] at hP
        have ha : a = [] := by
          cases a with
          | nil => rfl
          | cons _ _ => simp at hP
        exact hn (by rw [h2]; simp) ha

theorem indentText_blank (hh : BlankHints c) (lvl : Int) : Blank (indentText c lvl) := by
  unfold indentText
  split
  · next s hs =>
    intro ch hc
    rw [List.mem_flatten] at hc
    obtain ⟨l, hl, hc⟩ := hc
    rw [(List.mem_replicate.mp hl).2] at hc
    exact hh.hints _ (by decide) s hs ch hc
  · intro ch hc; cases hc

theorem indentText_nl (ha : AllowGap c NL) (lvl : Int) (h : '\n' ∈ indentText c lvl) : NL := by
  unfold indentText at h
  split at h
  · next s hs =>
    rw [List.mem_flatten] at h
    obtain ⟨l, hl, hc⟩ := h
    rw [(List.mem_replicate.mp hl).2] at hc
    exact ha.hint _ (by decide) s hs hc
  · cases h

theorem HeadRel.cut {s t b : Str} (h : HeadRel s (t ++ b)) (ht : t ≠ []) : HeadRel s t := by
  obtain ⟨y, t', rfl⟩ := List.exists_cons_of_ne_nil ht
  rcases h with ⟨h, _⟩ | h | ⟨_, h⟩
  · cases h
  · exact .inr (.inl h)
  · exact .inr (.inr ⟨by simp, h⟩)

/-- A newline is written for a gap. -/
theorem Wrote.newline {P : Str} {s t : Str} {es es' fs fs' : List Elem} {g K r ind : Str}
    (hg : Wrote c NL (lastOr ' ' P) s es es' g) (hK : Wrote c NL ' ' t fs fs' K) (hP : Firm P)
    (hi : Blank ind) (hNL : NL) (he : NlEff K (P ++ g) r ind) :
    ∃ g', r = P ++ g' ∧ Wrote c NL (lastOr ' ' P) (s ++ t) (es ++ fs) (es' ++ fs') g' := by
  obtain ⟨k, b, hk, hb, h⟩ := he
  rcases h with ⟨hne, h⟩ | ⟨rfl, a, d, h1, h2, h3, h4⟩
  · -- the text of the gap is kept up to the blanks at its end
    have hk1 : Wrote c NL (lastOr (lastOr ' ' P) g) t fs fs' k := by
      refine Wrote.weaken (x := ' ') (y := _) ⟨⟨?_, hK.rew, hK.com, ?_, ?_⟩, fun ho => Lined.dropTabs hb (hk ▸ hK.own ho)⟩ (by intro h; exact absurd h (by decide))
      · exact Text.dropTabs hK.com hb (hk ▸ hK.text)
      · intro hn hm
        exact hK.nl hn (by rw [hk]; simp [hm])
      · rcases hK.head with h | h | h
        · exact .inl h
        · exact .inr (.inl h)
        · rw [hk] at h; exact .inr (.inr (h.cut hne))
    have main : ∀ nl : Str, Blank nl → Wrote c NL (lastOr ' ' P) (s ++ t) (es ++ fs) (es' ++ fs') (g ++ (k ++ nl)) := by
      intro nl hnl
      have := (hg.append hk1).append (K := nl) (Wrote.ins (s := []) hnl (fun _ => hNL) (.inl rfl))
      simpa using this
    rcases h with ⟨_, rfl⟩ | rfl
    · exact ⟨_, by rw [List.append_assoc], main _ hi⟩
    · refine ⟨_, by rw [List.append_assoc], main _ ?_⟩
      intro ch hc
      rcases List.mem_cons.mp hc with rfl | hc
      · decide
      · exact hi ch hc
  · obtain ⟨a', rfl, rfl⟩ := firm_split hP h1 h2 h3
    have hKt : Text fs' [] := by
      have := hK.text
      rw [hk] at this
      exact Text.dropTabs hK.com hb this
    have hfs : fs' = [] := by
      generalize hz : ([] : Str) = z at hKt
      cases hKt with
      | nil => rfl
      | blank => cases hz
      | @elem e _ _ _ _ =>
        have : e.text = [] := by
          have := congrArg List.length hz
          simp at this
          exact List.eq_nil_of_length_eq_zero (by omega)
        have h1 := comment_last (hK.com e (by simp))
        rw [this] at h1
        rcases h1 with h1 | h1 <;> cases h1
    subst hfs
    have main : ∀ nl : Str, Blank nl → (nl ≠ [] ∨ (P ++ a').getLast? = some '\n') →
        Wrote c NL (lastOr ' ' P) (s ++ t) (es ++ fs) (es' ++ []) (a' ++ nl) := by
      intro nl hnl hor
      refine ⟨⟨?_, hg.rew.append hK.rew, hg.com.append hK.com, ?_, ?_⟩,
        fun ho => (Lined.dropTabs h2 (hg.own ho)).append (.of_blank hnl)⟩
      · exact (Text.dropTabs hg.com h2 hg.text).append (.of_blank hnl)
      · exact fun h => absurd hNL h
      · by_cases ha : a' = []
        · subst ha
          by_cases hnl0 : nl = []
          · rcases hor with h | h
            · exact absurd hnl0 h
            · simp only [List.append_nil] at h
              refine .inr (.inl ?_)
              unfold lastOr; rw [h]; rfl
          · obtain ⟨y, n', rfl⟩ := List.exists_cons_of_ne_nil hnl0
            exact .inr (.inr (.inr (.inl ⟨y, rfl, hnl y (by simp)⟩)))
        · rcases hg.head with h | h | h
          · exact .inl h
          · exact .inr (.inl h)
          · exact .inr (.inr ((h.cut ha).extend ha))
    rcases h4 with ⟨hl, rfl⟩ | rfl
    · exact ⟨_, by rw [List.append_assoc], main _ hi (.inr hl)⟩
    · refine ⟨_, by rw [List.append_assoc], main _ ?_ (.inl (by simp))⟩
      intro ch hc
      rcases List.mem_cons.mp hc with rfl | hc
      · decide
      · exact hi ch hc

/-! ### The comment printer -/

/-- The comment printer works on a gap of the source. -/
structure CCtx (c : Config) (NL : Prop) (e : CEnv) : Prop where
  range : e.range = none ∨ Ranged c NL e.env
  posRange : e.env.posRange = none ∨ Ranged c NL e.env
  buf : ∃ a b, e.off = a.length ∧ e.env.buf = a ++ (e.cbuf ++ b)

theorem CCtx.put {e : CEnv} (he : CCtx c NL e) {x y z f : Str} {p q : Nat} (h : e.cbuf = x ++ (y ++ z)) (hp : p = x.length)
    (hq : q = x.length + y.length) : e.put ⟨p, q⟩ f = .ok (f ++ y) := by
  obtain ⟨a, b, h1, h2⟩ := he.buf
  subst hp hq
  have := substr_mid e.env.buf (a := a) (x := x) (y := y) (w := z ++ b) (z := z) (by rw [h2, h]; simp)
  simp only [CEnv.put, h1, h, this, Res.bind_ok, Res.pure_eq]

theorem outOfRange_none (l : Loc) : outOfRange none l = false := rfl

theorem CCtx.out {e : CEnv} (he : CCtx c NL e) {l : Loc} (h : outOfRange e.range l = true) : Ranged c NL e.env := by
  rcases he.range with h1 | h1
  · rw [h1] at h; cases h
  · exact h1

theorem CCtx.outPos {e : CEnv} (he : CCtx c NL e) {l : Loc} (h : outOfRange e.env.posRange l = true) :
    Ranged c NL e.env := by
  rcases he.posRange with h1 | h1
  · rw [h1] at h; cases h
  · exact h1

/-- A hint that may be inserted between tokens. -/
structure HintOk (NL : Prop) (h : Str) : Prop where
  blank : Blank h
  nl : '\n' ∈ h → NL

theorem HintOk.nil : HintOk NL [] := ⟨fun _ h => (by cases h), fun h => (by cases h)⟩

theorem hintOk_of_opt (hh : BlankHints c) (ha : AllowGap c NL) {o : SOpt} (ho : o ∈ hintOptions) :
    HintOk NL ((c.str o).getD []) := by
  cases h : c.str o with
  | none => exact .nil
  | some s => exact ⟨hh.hints o ho s h, ha.hint o ho s h⟩

theorem blank_of_space {y : Str} (h : ∀ ch ∈ y, IsSpace ch) : Blank y ∧ '\n' ∉ y := by
  refine ⟨?_, ?_⟩
  · intro ch hc
    rcases h ch hc with rfl | rfl | rfl <;> decide
  · intro hc
    rcases h _ hc with h | h | h <;> exact absurd h (by decide)

theorem spaceHint_empty {e : CEnv} (he : CCtx c NL e) {x z f r : Str} {p q : Nat} (hs : e.cbuf = x ++ z)
    (hp : p = x.length) (hq : q = p) (hw : spaceHint e c ⟨p, q⟩ [] f = .ok r) : r = f := by
  have hput := he.put (f := f) (x := x) (y := []) (z := z) (p := p) (q := q) (by simpa using hs) hp (by simp [hq, hp])
  rw [spaceHint, hput] at hw
  split at hw
  · cases hw; simp
  · split at hw <;> (cases hw; simp)

theorem spaceHint_wrote {e : CEnv} (he : CCtx c NL e) {x y z f h r : Str} {p q : Nat} (hs : e.cbuf = x ++ (y ++ z))
    (hp : p = x.length) (hq : q = x.length + y.length) (hy : ∀ ch ∈ y, IsSpace ch) (hh : HintOk NL h)
    (hw : spaceHint e c ⟨p, q⟩ h f = .ok r) : ∃ K, r = f ++ K ∧ ∀ ch, Wrote c NL ch y [] [] K := by
  obtain ⟨b1, b2⟩ := blank_of_space hy
  rw [spaceHint] at hw
  split at hw
  · rw [he.put hs hp hq] at hw
    cases hw
    exact ⟨y, rfl, fun ch => .keep b1 fun h => absurd h b2⟩
  split at hw
  · next hc =>
    cases hw
    exact ⟨h, rfl, fun ch => .ins hh.blank hh.nl (.inr (.inr (.inl (.inl hc))))⟩
  · rw [he.put hs hp hq] at hw
    cases hw
    exact ⟨y, rfl, fun ch => .keep b1 fun h => absurd h b2⟩

/-- What is written for a token of a gap: blanks or a comment. -/
def CPiece (t : CTok) (K : Str) : Prop :=
  Blank K ∨ (t.isComment = true ∧ ∃ e : Elem, e.Ok ∧ e.isComment = true ∧ K = e.text)

theorem CPiece.lined {t : CTok} {P K : Str} (h : CPiece t K) (hP : t.isComment = true → AtLine c P) : Lined c P K := by
  rcases h with h | ⟨h1, e, h2, h3, rfl⟩
  · exact .of_blank h
  · simpa using Lined.comment h2 h3 (hP h1) .nil

theorem ctokText_wrote (hh : BlankHints c) (ha : AllowGap c NL) {t : CTok} {u rest : Str} (ht : CText t u rest) (x : Char) :
    ∃ es', Wrote0 c NL x u (celem t) es' (ctokText c t) ∧ CPiece t (ctokText c t) := by
  cases t with
  | newLine =>
    have hu : u = ['\n'] := ht
    subst hu
    refine ⟨[], ?_⟩
    simp only [ctokText, celem]
    split
    · next h =>
      exact ⟨(Wrote.ins (fun _ h => by cases h) (fun h => by cases h) (.inr (.inr (.inl (.inr (.inr (.inl h))))))).toWrote0,
        .inl (by decide)⟩
    · next h => exact ⟨(Wrote.keep (by decide) fun _ => ha.all h).toWrote0, .inl (by decide)⟩
  | oneLine s =>
    have hu : u.head? = some '-' ∧ LineText s := by
      rcases ht with ⟨h1, rfl⟩ | ⟨_, t, h1, rfl, h2⟩
      · exact ⟨rfl, h1⟩
      · refine ⟨rfl, ?_⟩
        rw [h2]
        split
        · refine ⟨by simp, ?_⟩
          intro n h
          have := h.length_le
          simp [opener] at this
        · exact h1
    simp only [ctokText, celem]
    by_cases hc : c.bool .removeComments = some true
    · rw [if_pos hc]
      have hsh : Shrinks c := .inr (.inl hc)
      refine ⟨[], ⟨?_, ?_, fun _ h => (by cases h), ?_, .inl hsh⟩, .inl (by split <;> decide)⟩
      · split
        · exact .nil
        · exact .of_blank (by decide)
      · exact .noComment hc rfl .nil
      · intro hn hm
        split at hm
        · cases hm
        · next h => exact hn (ha.all h)
    · rw [if_neg hc]
      have main : ∀ s', LineText s' → trim s' = trim s → (c.str .hintBeforeOnelineCommentText = none → s' = s) →
          .line s' = newComment c (.line s) →
          Wrote0 c NL x u [.line s] [.line s'] ('-' :: '-' :: (s' ++ ['\n'])) ∧
            CPiece (.oneLine s) ('-' :: '-' :: (s' ++ ['\n'])) := by
        intro s' h1 h2 h3 h4
        refine ⟨⟨Text.one (e := .line s') h1, .comment hc ⟨h2, h3, fun _ => h4⟩ .nil, ?_, fun h => absurd (ha.com hc) h, ?_⟩,
          .inr ⟨rfl, .line s', h1, rfl, rfl⟩⟩
        · intro e he; simp at he; subst he; rfl
        · exact .inr (.inr (.inr (.inr ⟨by simp, by rw [hu.1]; rfl⟩)))
      cases hp : c.str .hintBeforeOnelineCommentText with
      | none => exact ⟨_, by simpa using main s hu.2 rfl (fun _ => rfl) (by simp [newComment, hp])⟩
      | some p =>
        obtain ⟨p1, p2, p3⟩ := hh.oneline p hp
        simp only
        split
        · next hs =>
          refine ⟨_, main [] ⟨by simp, ?_⟩ ?_ (by simp [hp]) (by simp [newComment, hp, hs])⟩
          · intro n h
            have := h.length_le
            simp [opener] at this
          · rw [← trim_trimStart s, hs]
        · next hs =>
          refine ⟨[.line (p ++ trimStart s)], ?_⟩
          have := main (p ++ trimStart s) (LineText.pad hu.2 p2 p1 p3)
            (by rw [trim_padL (.of_blank p2), trim_trimStart]) (by simp [hp]) (by simp [newComment, hp, hs])
          simpa using this
  | multiLine n s =>
    obtain ⟨hb, rfl⟩ := ht
    simp only [ctokText, celem]
    by_cases hc : c.bool .removeComments = some true
    · rw [if_pos hc]
      exact ⟨[], ⟨.nil, .noComment hc rfl .nil, fun _ h => (by cases h), fun _ h => (by cases h), .inl (.inr (.inl hc))⟩,
        .inl (by decide)⟩
    · rw [if_neg hc]
      have main : ∀ s', LongBody n false s' → trim s' = trim s →
          (c.str .hintBeforeMultilineCommentText = none → c.str .hintAfterMultilineCommentText = none → s' = s) →
          .long n s' = newComment c (.long n s) →
          Wrote0 c NL x ('-' :: '-' :: (opener n ++ (s ++ closer n))) [.long n s] [.long n s']
            ('-' :: '-' :: (opener n ++ s' ++ closer n)) ∧ CPiece (.multiLine n s) ('-' :: '-' :: (opener n ++ s' ++ closer n)) := by
        intro s' h1 h2 h3 h4
        refine ⟨⟨Text.one (e := .long n s') h1, .comment hc ⟨rfl, h2, h3, fun _ => h4⟩ .nil, ?_, fun h => absurd (ha.com hc) h, ?_⟩,
          .inr ⟨rfl, .long n s', h1, rfl, rfl⟩⟩
        · intro e he; simp at he; subst he; rfl
        · exact .inr (.inr (.inr (.inr ⟨by simp, rfl⟩)))
      cases hp : c.str .hintBeforeMultilineCommentText with
      | none =>
        cases hq : c.str .hintAfterMultilineCommentText with
        | none => exact ⟨_, by simpa [opener, closer] using main s hb rfl (fun _ _ => rfl) (by simp [newComment, hp, hq])⟩
        | some q =>
          obtain ⟨q1, q2⟩ := hh.multiAfter q hq
          refine ⟨[.long n (trimEnd s ++ q)], ?_⟩
          have := main (trimEnd s ++ q) (LongBody.trimEnd_pad (.of_blank q2) q1 hb)
            (by rw [trim_padR (.of_blank q2), trim_trimEnd]) (by simp [hq]) (by simp [newComment, hp, hq])
          simpa [opener, closer] using this
      | some p =>
        have p2 := hh.multiBefore p hp
        cases hq : c.str .hintAfterMultilineCommentText with
        | none =>
          refine ⟨[.long n (p ++ trimStart s)], ?_⟩
          have := main (p ++ trimStart s) (LongBody.pad (.of_blank p2) (LongBody.trimStart hb) (fun _ => rfl))
            (by rw [trim_padL (.of_blank p2), trim_trimStart]) (by simp [hp]) (by simp [newComment, hp, hq])
          simpa [opener, closer] using this
        | some q =>
          obtain ⟨q1, q2⟩ := hh.multiAfter q hq
          refine ⟨[.long n (p ++ (trim s ++ q))], ?_⟩
          have := main (p ++ (trim s ++ q))
            (LongBody.pad (.of_blank p2) (LongBody.trimEnd_pad (.of_blank q2) q1 (LongBody.trimStart hb)) (fun _ => rfl))
            (by
              rw [trim_padL (.of_blank p2), trim_padR (.of_blank q2)]
              show trim (trimEnd (trimStart s)) = trim s
              rw [trim_trimEnd, trim_trimStart])
            (by simp [hp]) (by simp [newComment, hp, hq])
          simpa [opener, closer] using this

/-- The end of the last token. -/
def cendFrom (p : Nat) : List CTokL → Nat
  | [] => p
  | t :: ts => cendFrom t.r ts

theorem crunEnd_eq (t : CTokL) (ts : List CTokL) : crunEnd (t :: ts) = cendFrom t.r ts := by
  induction ts generalizing t with
  | nil => rfl
  | cons u us ih => rw [cendFrom, ← ih u]; rfl

/-- The tokens tile the text, and they are complete if `F` holds. -/
inductive CFull (F : Prop) : Nat → Str → List CTokL → Prop
  | nil {p : Nat} {s : Str} : (∀ ch ∈ s, IsSpace ch) → CFull F p s []
  | cons {p : Nat} {b u s : Str} {t : CTokL} {ts : List CTokL} : (∀ ch ∈ b, IsSpace ch) →
      CText t.tok u s ∧ (F → CWhole t.tok u) →
      t.l = p + b.length → t.r = t.l + u.length → CFull F t.r s ts → CFull F p (b ++ (u ++ s)) (t :: ts)

theorem CTiles.full {F : Prop} {p : Nat} {s : Str} {ts : List CTokL} (h : CTiles p s ts) (hw : F → CWholes p s ts) :
    CFull F p s ts := by
  induction h with
  | nil hs => exact .nil hs
  | @cons p b u s t ts hb hu hl hr h ih =>
    have key : F → CWhole t.tok u ∧ CWholes t.r s ts := by
      intro hf
      have := hw hf
      generalize he : b ++ (u ++ s) = v at this
      generalize he' : t :: ts = vs at this
      cases this with
      | nil => cases he'
      | @cons _ b' u' s' _ _ k1 k2 k3 k4 =>
        cases he'
        obtain ⟨e1, e2⟩ := List.append_inj he (by omega)
        obtain ⟨e3, e4⟩ := List.append_inj e2 (by omega)
        subst e3 e4
        exact ⟨k1, k4⟩
    exact .cons hb ⟨hu, fun hf => (key hf).1⟩ hl hr (ih fun hf => (key hf).2)

theorem cwhole_text {t : CTok} {u rest : Str} (h : CText t u rest) (hw : CWhole t u) : Text (celem t) u := by
  cases t with
  | newLine =>
    have hu : u = ['\n'] := h
    subst hu
    exact .of_blank (by decide)
  | oneLine s =>
    have hu : u = '-' :: '-' :: (s ++ ['\n']) := hw
    have hl : LineText s := by
      rcases h with ⟨h, _⟩ | ⟨_, t, h1, h2, _⟩
      · exact h
      · rw [hu] at h2
        simp only [List.cons.injEq, true_and] at h2
        rw [← h2] at h1
        exact absurd h1.1 (by simp)
    rw [hu]
    exact Text.one (e := .line s) hl
  | multiLine n s =>
    obtain ⟨hb, rfl⟩ := h
    have := Text.one (e := .long n s) hb
    simpa [Elem.text, celem] using this

theorem celem_comments (t : CTok) : Comments (celem t) := by
  intro e he
  cases t <;> simp [celem] at he <;> subst he <;> rfl

/-- The text of the first tokens. -/
theorem CFull.take {F : Prop} (hF : F) {ts : List CTokL} : ∀ {p : Nat} {s : Str} {more : List CTokL}, CFull F p s (ts ++ more) →
    ∃ a b, s = a ++ b ∧ cendFrom p ts = p + a.length ∧ Text (celems ts) a ∧ CFull F (cendFrom p ts) b more := by
  induction ts with
  | nil => intro p s more h; exact ⟨[], s, rfl, rfl, .nil, h⟩
  | cons t ts ih =>
    intro p s more h
    cases h with
    | @cons _ b u s _ _ k1 k2 k3 k4 k5 =>
      obtain ⟨a, d, e1, e2, e3, e4⟩ := ih k5
      refine ⟨b ++ (u ++ a), d, by simp [e1], ?_, ?_, e4⟩
      · simp only [cendFrom, List.length_append]; omega
      · have := (Text.of_blank (blank_of_space k1).1).append ((cwhole_text k2.1 (k2.2 hF)).append e3)
        simpa [celems] using this

/-- The state of the comment printer: the position `p` in the gap, the tokens `ts` to come, and the text `g`
written for the comments `es` before. With a range the tokens are complete. -/
def CAt (c : Config) (NL : Prop) (e : CEnv) (x : Char) (g : Str) (es : List Elem) (ts : List CTokL) (p : Nat) : Prop :=
  ∃ pre suf es', e.cbuf = pre ++ suf ∧ pre.length = p ∧ CFull (Ranged c NL e.env) p suf ts ∧ Wrote c NL x pre es es' g

theorem CAt.split {e : CEnv} {x : Char} {g : Str} {es : List Elem} {t : CTokL} {ts : List CTokL} {p : Nat}
    (h : CAt c NL e x g es (t :: ts) p) : ∃ pre b u s es', e.cbuf = pre ++ (b ++ (u ++ s)) ∧ pre.length = p ∧
      (∀ ch ∈ b, IsSpace ch) ∧ (CText t.tok u s ∧ (Ranged c NL e.env → CWhole t.tok u)) ∧ t.l = p + b.length ∧
      t.r = t.l + u.length ∧ CFull (Ranged c NL e.env) t.r s ts ∧
      Wrote c NL x pre es es' g := by
  obtain ⟨pre, suf, es', h1, h2, h3, h4⟩ := h
  cases h3 with
  | @cons _ b u s _ _ k1 k2 k3 k4 k5 => exact ⟨pre, b, u, s, es', h1, h2, k1, k2, k3, k4, k5, h4⟩

theorem CAt.skip {e : CEnv} {x : Char} {g' pre b u s : Str} {es es' : List Elem} {t : CTokL} {ts : List CTokL}
    {p : Nat} (h1 : e.cbuf = pre ++ (b ++ (u ++ s))) (h2 : pre.length = p)
    (k2 : CText t.tok u s ∧ (Ranged c NL e.env → CWhole t.tok u))
    (k3 : t.l = p + b.length) (k4 : t.r = t.l + u.length) (k5 : CFull (Ranged c NL e.env) t.r s ts)
    (h4 : Wrote c NL x (pre ++ b) es es' g') : CAt c NL e x g' es (t :: ts) t.l := by
  refine ⟨pre ++ b, u ++ s, es', by simp [h1], by simp [h2, k3], ?_, h4⟩
  have := CFull.cons (p := t.l) (b := []) (by simp) k2 (by simp) k4 k5
  simpa using this

theorem CAt.gap (hh : BlankHints c) {e : CEnv} (he : CCtx c NL e) {x : Char} {g h r : Str}
    {es : List Elem} {t : CTokL} {ts : List CTokL} {p : Nat} {b : Bool} (h0 : CAt c NL e x g es (t :: ts) p)
    (hb : b = true → NL) (hx : HintOk NL h)
    (hw : ifNewLine c e.lvl b (spaceHint e c ⟨p, t.l⟩) h ([x] ++ g) = .ok r) :
    ∃ g', r = [x] ++ g' ∧ CAt c NL e x g' es (t :: ts) t.l ∧ (b = true → AtLine c ([x] ++ g')) ∧
      (b = false → p = t.l → h = [] → g' = g) := by
  obtain ⟨pre, b', u, s, es', h1, h2, k1, k2, k3, k4, k5, h4⟩ := h0.split
  cases b with
  | false =>
    simp only [ifNewLine, Bool.false_eq_true, if_false] at hw
    obtain ⟨K, hr, hK⟩ := spaceHint_wrote (c := c) (NL := NL) he h1 h2.symm (by rw [k3, h2]) k1 hx hw
    refine ⟨g ++ K, by rw [hr]; simp, ?_, fun h => (by cases h), ?_⟩
    · have := h4.append (hK (lastOr x g))
      rw [List.append_nil, List.append_nil] at this
      exact CAt.skip h1 h2 k2 k3 k4 k5 this
    · rintro _ hp rfl
      have := spaceHint_empty he h1 h2.symm hp.symm hw
      rw [hr, List.append_assoc] at this
      exact List.append_cancel_left this
  | true =>
    obtain ⟨K, hK, hE⟩ := ifNewLine_eff hw
    obtain ⟨K', hr, hK'⟩ := spaceHint_wrote (c := c) (NL := NL) he h1 h2.symm (by rw [k3, h2]) k1 .nil hK
    rw [List.nil_append] at hr
    subst hr
    obtain ⟨g', hg1, hg2⟩ := Wrote.newline (P := [x]) (g := g) h4 (hK' ' ') (.inr (by simp))
      (indentText_blank hh _) (hb rfl) hE
    refine ⟨g', hg1, ?_, fun _ => hg1 ▸ hE.atLine, fun h => (by cases h)⟩
    rw [List.append_nil, List.append_nil] at hg2
    exact CAt.skip h1 h2 k2 k3 k4 k5 hg2

theorem CAt.cgap (hh : BlankHints c) {e : CEnv} (he : CCtx c NL e) {x : Char} {g h r : Str}
    {es : List Elem} {t : CTokL} {ts : List CTokL} {p : Nat} {b : Bool} (h0 : CAt c NL e x g es (t :: ts) p)
    (hb : b = true → NL) (hx : HintOk NL h)
    (hw : Luafmt.cgap e c b ⟨p, t.l⟩ h ([x] ++ g) = .ok r) :
    ∃ g', r = [x] ++ g' ∧ CAt c NL e x g' es (t :: ts) t.l ∧ (CommentLines c → b = true → AtLine c ([x] ++ g')) := by
  unfold Luafmt.cgap at hw
  split at hw
  · next ho =>
    have hR := he.outPos ho
    obtain ⟨pre, b', u, s, es', h1, h2, k1, k2, k3, k4, k5, h4⟩ := h0.split
    obtain ⟨a, z, _, hz⟩ := he.buf
    rw [substr_ascii hR.ascii hz h1 h2.symm (by omega)] at hw
    cases hw
    have hb' := blank_of_space k1
    have := h4.append (Wrote.keep (c := c) (NL := NL) (x := lastOr x g) hb'.1 fun h => absurd h hb'.2)
    rw [List.append_nil, List.append_nil] at this
    exact ⟨g ++ b', by simp, CAt.skip h1 h2 k2 k3 k4 k5 this, fun ho => absurd ho.range hR.line⟩
  · obtain ⟨g', a1, a2, a3, _⟩ := h0.gap hh he hb hx hw
    exact ⟨g', a1, a2, fun _ => a3⟩

theorem CAt.tok (hh : BlankHints c) (ha : AllowGap c NL) {e : CEnv} (he : CCtx c NL e) {x : Char} {g r : Str}
    {es : List Elem} {t : CTokL} {ts : List CTokL} (h0 : CAt c NL e x g es (t :: ts) t.l)
    (hO : CommentLines c → t.tok.isComment = true → AtLine c ([x] ++ g)) (hw : ctokWrite e c t ([x] ++ g) = .ok r) :
    ∃ g', r = [x] ++ g' ∧ CAt c NL e x g' (es ++ celem t.tok) ts t.r := by
  obtain ⟨pre, b', u, s, es', h1, h2, k1, k2, k3, k4, k5, h4⟩ := h0.split
  have hb : b' = [] := List.eq_nil_of_length_eq_zero (by omega)
  subst hb
  unfold ctokWrite at hw
  split at hw
  · next ho =>
    have hR := he.out ho
    rw [he.put (x := pre) (y := u) (z := s) (by simpa using h1) (by simpa [h2] using k3) (by simp at k3; omega)] at hw
    cases hw
    have hf := Wrote.copy (c := c) (NL := NL) (x := lastOr x g) hR.line hR.nl (cwhole_text k2.1 (k2.2 hR)) (celem_comments _)
    exact ⟨g ++ u, by simp, pre ++ u, s, _, by simp [h1], by simp [h2, k4], k5, h4.append hf⟩
  cases hw
  obtain ⟨fs', hf, hpc⟩ := ctokText_wrote hh ha k2.1 (lastOr x g)
  exact ⟨g ++ ctokText c t.tok, by simp, pre ++ u, s, _, by simp [h1], by simp [h2, k4], k5, h4.toWrote0.append hf,
    fun ho => (h4.own ho).append (hpc.lined (hO ho))⟩

theorem ctokHint_ok (hh : BlankHints c) (ha : AllowGap c NL) (t : CTok) : HintOk NL (ctokHint c t) := by
  cases t
  case newLine => exact .nil
  all_goals exact hintOk_of_opt hh ha (by decide)

theorem ctokNewline_nl (ha : AllowGap c NL) {t : CTok} (h : ctokNewline c t = true) : NL := by
  cases t <;> simp only [ctokNewline, decide_eq_true_eq] at h
  · exact ha.nlc ⟨_, by decide, h⟩
  · exact ha.nlc ⟨_, by decide, h⟩
  · cases h

theorem ctokFirstNewline_nl (ha : AllowGap c NL) {t : CTok} (h : ctokFirstNewline c t = true) : NL := by
  cases t <;> simp only [ctokFirstNewline, decide_eq_true_eq] at h
  · exact ha.nlc ⟨_, by decide, h⟩
  · exact ha.nlc ⟨_, by decide, h⟩
  · cases h

theorem ctokNewline_own (ho : CommentLines c) {t : CTok} (h : t.isComment = true) : ctokNewline c t = true := by
  cases t
  · simp [ctokNewline, ho.oneline]
  · simp [ctokNewline, ho.multiline]
  · cases h

theorem ctokFirstNewline_own (ho : CommentLines c) {t : CTok} (h : t.isComment = true) : ctokFirstNewline c t = true := by
  cases t
  · simp [ctokFirstNewline, ho.firstOneline]
  · simp [ctokFirstNewline, ho.firstMultiline]
  · cases h

theorem CAt.runRest (hh : BlankHints c) (ha : AllowGap c NL) {e : CEnv} (he : CCtx c NL e) {x : Char} {k : Bool}
    {ts : List CTokL} : ∀ {g r : Str} {es : List Elem} {more : List CTokL} {p : Nat},
    CAt c NL e x g es (ts ++ more) p → (∀ t ∈ ts, t.tok.isComment = k) →
    crunRest e c k (crunItems (some p) ts) ([x] ++ g) = .ok r →
    ∃ g', r = [x] ++ g' ∧ CAt c NL e x g' (es ++ celems ts) more (cendFrom p ts) := by
  induction ts with
  | nil =>
    intro g r es more p h0 _ hw
    cases hw
    exact ⟨g, rfl, by simpa [celems, cendFrom] using h0⟩
  | cons t ts ih =>
    intro g r es more p h0 hk hw
    simp only [crunItems, crunRest, Res.bind_eq_ok] at hw
    obtain ⟨f1, w1, f2, w2, w3⟩ := hw
    obtain ⟨g1, rfl, a1, l1⟩ := h0.cgap hh he (fun hb => ctokNewline_nl ha (by simp at hb; exact hb.2)) (ctokHint_ok hh ha _) w1
    obtain ⟨g2, rfl, a2⟩ := a1.tok hh ha he (fun ho hc => l1 ho (by rw [← hk t (by simp), hc, ctokNewline_own ho hc]; rfl)) w2
    obtain ⟨g3, hr, a3⟩ := ih a2 (fun t h => hk t (by simp [h])) w3
    exact ⟨g3, hr, by simpa [celems, cendFrom] using a3⟩

/-- The text of the next tokens is copied. -/
theorem CAt.copy {e : CEnv} (he : CCtx c NL e) (hR : Ranged c NL e.env) {x : Char} {t : CTokL} {ts : List CTokL}
    {g r : Str} {es : List Elem} {more : List CTokL} {p q : Nat}
    (h0 : CAt c NL e x g es (t :: ts ++ more) p) (hp : p = t.l) (hq : q = cendFrom t.r ts)
    (hw : e.put ⟨t.l, q⟩ ([x] ++ g) = .ok r) :
    ∃ g', r = [x] ++ g' ∧ CAt c NL e x g' (es ++ celems (t :: ts)) more q := by
  obtain ⟨pre, suf, es', h1, h2, h3, h4⟩ := h0
  obtain ⟨a, b, e1, e2, e3, e4⟩ := h3.take hR
  subst e1
  have e2' : q = pre.length + a.length := by rw [hq, h2]; exact e2
  rw [he.put h1 (by omega) e2'] at hw
  cases hw
  refine ⟨g ++ a, by simp, pre ++ a, b, _, by simp [h1], by simp [e2'], ?_, h4.append (.copy hR.line hR.nl e3 (celems_comments _))⟩
  rw [hq]
  exact e4

theorem CAt.run (hh : BlankHints c) (ha : AllowGap c NL) {e : CEnv} (he : CCtx c NL e) {x : Char} {k : Bool} {sp : Loc}
    {t : CTokL} {ts : List CTokL} {g r : Str} {es : List Elem} {more : List CTokL}
    (h0 : CAt c NL e x g es (t :: ts ++ more) t.l) (hk : ∀ u ∈ t :: ts, u.tok.isComment = k)
    (hO : CommentLines c → t.tok.isComment = true → AtLine c ([x] ++ g)) (hsp : sp = ⟨t.l, crunEnd (t :: ts)⟩)
    (hw : crunWrite e c ⟨sp, k, crunItems none (t :: ts)⟩ ([x] ++ g) = .ok r) :
    ∃ g', r = [x] ++ g' ∧ CAt c NL e x g' (es ++ celems (t :: ts)) more (crunEnd (t :: ts)) := by
  unfold crunWrite at hw
  split at hw
  · next ho =>
    have hR := he.out ho
    rw [hsp] at hw
    exact h0.copy he hR rfl (crunEnd_eq t ts) hw
  simp only [crunItems, Res.bind_eq_ok] at hw
  obtain ⟨f1, w1, f2, w2, w3⟩ := hw
  obtain ⟨g1, rfl, a1, _, l1⟩ := h0.gap hh he (fun h => by cases h) .nil w1
  obtain rfl := l1 rfl rfl rfl
  obtain ⟨g2, rfl, a2⟩ := a1.tok hh ha he hO w2
  obtain ⟨g3, hr, a3⟩ := a2.runRest hh ha he (fun u h => hk u (by simp [h])) w3
  exact ⟨g3, hr, by simpa [celems, crunEnd_eq] using a3⟩

/-- The groups of tokens. -/
def Groups (gs : List (Bool × List CTokL)) : Prop := ∀ g ∈ gs, g.2 ≠ [] ∧ ∀ t ∈ g.2, t.tok.isComment = g.1

theorem cgroup_ok (ts : List CTokL) : Groups (cgroup ts) ∧ (cgroup ts).flatMap (·.2) = ts := by
  induction ts with
  | nil => exact ⟨fun _ h => (by cases h), rfl⟩
  | cons t ts ih =>
    unfold cgroup
    generalize cgroup ts = gs at ih
    cases gs with
    | nil =>
      simp only
      refine ⟨fun g hg => ?_, ?_⟩
      · simp at hg; subst hg; simp
      · have := ih.2
        simp at this
        simp [← this]
    | cons g gs =>
      obtain ⟨b, g⟩ := g
      simp only
      obtain ⟨h1, h2⟩ := ih
      split
      · next hb =>
        refine ⟨fun g' hg => ?_, ?_⟩
        · rcases List.mem_cons.mp hg with rfl | hg
          · refine ⟨by simp, fun u hu => ?_⟩
            rcases List.mem_cons.mp hu with rfl | hu
            · exact hb
            · exact (h1 (b, g) (by simp)).2 u hu
          · exact h1 g' (by simp [hg])
        · simpa using h2
      · refine ⟨fun g' hg => ?_, ?_⟩
        · rcases List.mem_cons.mp hg with rfl | hg
          · simp
          · exact h1 g' hg
        · simpa using h2

theorem crunNewline_nl {q : CTok → Bool} {r : CRun} (hq : ∀ t, q t = true → NL) (h : crunNewline q r = true) : NL := by
  unfold crunNewline at h
  split at h
  · exact hq _ h
  · cases h

theorem CAt.variantRest (hh : BlankHints c) (ha : AllowGap c NL) {e : CEnv} (he : CCtx c NL e) {x : Char}
    {gs : List (Bool × List CTokL)} : ∀ {g r : Str} {es : List Elem} {p : Nat}, Groups gs →
    CAt c NL e x g es (gs.flatMap (·.2)) p → cvariantRest e c (cvariant (some p) gs) ([x] ++ g) = .ok r →
    ∃ g', r = [x] ++ g' ∧ CAt c NL e x g' (es ++ celems (gs.flatMap (·.2))) [] (cendFrom p (gs.flatMap (·.2))) := by
  induction gs with
  | nil =>
    intro g r es p _ h0 hw
    cases hw
    exact ⟨g, rfl, by simpa [celems, cendFrom] using h0⟩
  | cons q gs ih =>
    intro g r es p hg h0 hw
    obtain ⟨k, q⟩ := q
    obtain ⟨t, ts, rfl⟩ := List.exists_cons_of_ne_nil (hg (k, q) (by simp)).1
    simp only [cvariant, crunStart, cvariantRest, Res.bind_eq_ok] at hw
    obtain ⟨f1, w1, f2, w2, w3⟩ := hw
    simp only [List.flatMap_cons, List.cons_append] at h0
    obtain ⟨g1, rfl, a1, l1⟩ := h0.cgap hh he (fun hb => crunNewline_nl (fun t => ctokNewline_nl ha) hb) .nil w1
    have hk : ∀ u ∈ t :: ts, u.tok.isComment = k := (hg (k, t :: ts) (by simp)).2
    obtain ⟨g2, rfl, a2⟩ := CAt.run (ts := ts) hh ha he a1 hk (fun ho hc => l1 ho (by
      have : k = true := by rw [← hk t (by simp), hc]
      subst this
      exact ctokNewline_own ho hc)) rfl w2
    obtain ⟨g3, hr, a3⟩ := ih (fun g h => hg g (by simp [h])) a2 w3
    refine ⟨g3, hr, ?_⟩
    have hend : ∀ (p : Nat) (a b : List CTokL), cendFrom p (a ++ b) = cendFrom (cendFrom p a) b := by
      intro p a b
      induction a generalizing p with
      | nil => rfl
      | cons y a ih => exact ih y.r
    simp only [List.flatMap_cons, celems_append]
    rw [hend, ← List.append_assoc]
    rw [crunEnd_eq] at a3
    exact a3

theorem cvariantWrite_cases {e : CEnv} {locl locr sp gap : Loc} {q : CRun} {rs : List (Loc × CRun)}
    {f r : Str} (ho : ¬ outOfRange e.range sp = true)
    (hw : cvariantWrite e c ⟨locl, sp, (gap, q) :: rs, locr⟩ f = .ok r) :
    (c.bool .removeSingleNewlines = some true ∧ rs = [] ∧ q.isComments = false ∧ q.items.length = 1 ∧ r = f) ∨
    ∃ f1 f2, ifNewLine c e.lvl (crunNewline (ctokFirstNewline c) q) (spaceHint e c gap) [] f = .ok f1 ∧
      crunWrite e c q f1 = .ok f2 ∧ cvariantRest e c rs f2 = .ok r := by
  unfold cvariantWrite at hw
  rw [if_neg ho] at hw
  cases rs with
  | nil =>
    simp only at hw
    split at hw
    · next hs =>
      cases hw
      refine .inl ⟨hs.1, rfl, ?_⟩
      have := hs.2
      simp at this
      exact ⟨this.1, this.2, rfl⟩
    · simp only [Res.bind_eq_ok] at hw
      obtain ⟨f1, w1, f2, w2, w3⟩ := hw
      exact .inr ⟨f1, f2, w1, w2, w3⟩
  | cons q2 rs =>
    simp only at hw
    rw [if_neg (by simp)] at hw
    simp only [Res.bind_eq_ok] at hw
    obtain ⟨f1, w1, f2, w2, w3⟩ := hw
    exact .inr ⟨f1, f2, w1, w2, w3⟩

theorem CAt.variant (hh : BlankHints c) (ha : AllowGap c NL) {e : CEnv} (he : CCtx c NL e) {x : Char} {locl locr sp : Loc}
    {t : CTokL} {ts : List CTokL} {g r : Str} (h0 : CAt c NL e x g [] (t :: ts) t.l)
    (hsp : sp = ⟨t.l, crunEnd (t :: ts)⟩)
    (hw : cvariantWrite e c ⟨locl, sp, cvariant none (cgroup (t :: ts)), locr⟩ ([x] ++ g) = .ok r) :
    ∃ g', r = [x] ++ g' ∧ CAt c NL e x g' (celems (t :: ts)) [] (crunEnd (t :: ts)) := by
  by_cases ho : outOfRange e.range sp = true
  · unfold cvariantWrite at hw
    rw [if_pos ho, hsp] at hw
    have := CAt.copy (more := []) he (he.out ho) (by simpa using h0) rfl (crunEnd_eq t ts) hw
    simpa using this
  clear hsp
  obtain ⟨hg, hf⟩ := cgroup_ok (t :: ts)
  generalize hgs : cgroup (t :: ts) = gs at *
  cases gs with
  | nil => simp at hf
  | cons q gs =>
    obtain ⟨k, q⟩ := q
    obtain ⟨t', q', hq'⟩ := List.exists_cons_of_ne_nil (hg (k, q) (by simp)).1
    simp only at hq'
    subst hq'
    simp only [List.flatMap_cons, List.cons_append, List.cons.injEq] at hf
    obtain ⟨rfl, rfl⟩ := hf
    simp only [cvariant, crunStart] at hw
    rcases cvariantWrite_cases ho hw with ⟨hs, h1, h2, h3, rfl⟩ | ⟨f1, f2, w1, w2, w3⟩
    · -- a single newline
      have hsingle : gs = [] ∧ q' = [] ∧ k = false := by
        refine ⟨?_, ?_, h2⟩
        · cases gs with
          | nil => rfl
          | cons _ _ => simp [cvariant] at h1
        · cases q' with
          | nil => rfl
          | cons _ _ => simp [crunItems] at h3
      clear h1 h2 h3
      obtain ⟨rfl, rfl, rfl⟩ := hsingle
      have htok : celem t'.tok = [] := by
        simp [cgroup] at hgs
        revert hgs
        cases t'.tok <;> simp [CTok.isComment, celem]
      obtain ⟨pre, b', u, s, es', h1, h2, k1, k2, k3, k4, k5, h4⟩ := h0.split
      have hb : b' = [] := List.eq_nil_of_length_eq_zero (by omega)
      subst hb
      refine ⟨g, rfl, pre ++ u, s, es', by simp [h1], by simp [h2, k4, crunEnd], by simpa [crunEnd] using k5, ?_⟩
      have := h4.append (K := []) (fs := []) (fs' := []) (t := u)
        (Wrote.ins (fun _ h => by cases h) (fun h => by cases h) (.inr (.inr (.inl (.inr (.inr (.inr hs)))))))
      simpa [celems, htok] using this
    · obtain ⟨g1, rfl, a1, l1, _⟩ := h0.gap hh he (fun hb => crunNewline_nl (fun t => ctokFirstNewline_nl ha) hb) .nil w1
      have hk : ∀ u ∈ t' :: q', u.tok.isComment = k := (hg (k, t' :: q') (by simp)).2
      obtain ⟨g2, rfl, a2⟩ := CAt.run (ts := q') hh ha he a1 hk (fun ho hc => l1 (by
        have : k = true := by rw [← hk t' (by simp), hc]
        subst this
        exact ctokFirstNewline_own ho hc)) rfl w2
      obtain ⟨g3, hr, a3⟩ := a2.variantRest hh ha he (fun g h => hg g (by simp [h])) w3
      refine ⟨g3, hr, ?_⟩
      have hend : ∀ (p : Nat) (a b : List CTokL), cendFrom p (a ++ b) = cendFrom (cendFrom p a) b := by
        intro p a b
        induction a generalizing p with
        | nil => rfl
        | cons y a ih => exact ih y.r
      rw [crunEnd_eq] at a3 ⊢
      rw [hend]
      rw [show t' :: (q' ++ gs.flatMap (·.2)) = (t' :: q') ++ gs.flatMap (·.2) from rfl, celems_append]
      simpa using a3

theorem CAt.final {e : CEnv} (he : CCtx c NL e) {x : Char} {g r : Str} {es : List Elem} {p : Nat}
    (h0 : CAt c NL e x g es [] p) (hw : spaceHint e c ⟨p, e.cbuf.length⟩ [] ([x] ++ g) = .ok r) :
    ∃ g' es', r = [x] ++ g' ∧ Wrote c NL x e.cbuf es es' g' := by
  obtain ⟨pre, suf, es', h1, h2, h3, h4⟩ := h0
  cases h3 with
  | nil hsp =>
    obtain ⟨K, hr, hK⟩ := spaceHint_wrote (c := c) (NL := NL) (z := []) he (by simpa using h1) h2.symm
      (by rw [h1]; simp) hsp .nil hw
    refine ⟨g ++ K, es', by rw [hr]; simp, ?_⟩
    have := h4.append (hK (lastOr x g))
    rw [List.append_nil, List.append_nil, ← h1] at this
    exact this

theorem cchunk_wrote (hh : BlankHints c) (ha : AllowGap c NL) {e : CEnv} (he : CCtx c NL e) {ts : List CTokL}
    (hts : clex e.cbuf = some ts) (htl : CFull (Ranged c NL e.env) 0 e.cbuf ts) {x : Char}
    {ch : CChunk} {r : Str} (hp : parseComment e.cbuf = some ch) (hw : cchunkWrite e c ch [x] = .ok r) :
    ∃ K es', r = [x] ++ K ∧ Wrote c NL x e.cbuf (celems ts) es' K := by
  have h0 : CAt c NL e x [] [] ts 0 := ⟨[], e.cbuf, [], rfl, rfl, htl, .nil⟩
  unfold parseComment at hp
  rw [hts] at hp
  unfold cchunkWrite at hw
  split at hw
  · next ho =>
    have hR := he.out ho
    have hl : (⟨ch.locl.l, ch.locr.r⟩ : Loc) = ⟨0, e.cbuf.length⟩ := by
      cases ts <;> (cases hp; rfl)
    rw [hl, he.put (x := []) (y := e.cbuf) (z := []) (p := 0) (q := e.cbuf.length) (by simp) rfl (by simp)] at hw
    cases hw
    have ht : CFull (Ranged c NL e.env) 0 e.cbuf (ts ++ []) := by simpa using htl
    obtain ⟨a, b, e1, _, e3, e4⟩ := ht.take hR
    cases e4 with
    | nil hb =>
      refine ⟨e.cbuf, _, rfl, .copy hR.line hR.nl ?_ (celems_comments ts)⟩
      have := e3.append (.of_blank (blank_of_space hb).1)
      rw [e1]
      simpa using this
  simp only [Res.bind_eq_ok] at hw
  cases ts with
  | nil =>
    cases hp
    obtain ⟨f1, w1, f2, w2, w3⟩ := hw
    obtain ⟨g1, es1, rfl, a1⟩ := h0.final (r := f1) he (by simpa using w1)
    unfold cvariantWrite at w2
    have : f2 = [x] ++ g1 := by
      split at w2
      · rw [he.put (x := e.cbuf) (y := []) (z := []) (by simp) rfl (by simp)] at w2
        cases w2
        simp
      · simp only at w2
        split at w2 <;> (cases w2; rfl)
    subst this
    have h1 : CAt c NL e x g1 [] [] e.cbuf.length := ⟨e.cbuf, [], es1, by simp, rfl, .nil (by simp), a1⟩
    obtain ⟨g2, es2, rfl, a2⟩ := h1.final he w3
    exact ⟨g2, es2, rfl, by simpa [celems] using a2⟩
  | cons t ts =>
    cases hp
    obtain ⟨f1, w1, f2, w2, w3⟩ := hw
    obtain ⟨g1, rfl, a1, _⟩ := h0.gap (b := false) (h := []) (r := f1) hh he (fun h => by cases h) .nil
      (by simpa [ifNewLine] using w1)
    obtain ⟨g2, rfl, a2⟩ := a1.variant hh ha he rfl w2
    obtain ⟨g3, es3, rfl, a3⟩ := a2.final he w3
    exact ⟨g3, es3, rfl, a3⟩

/-! ### Gaps of the source -/

/-- The comments of a gap. -/
def gapElems (g : Str) : List Elem := celems ((clex g).getD [])

theorem gapElems_gap {g : Str} (h : Gap g) : GapText g (gapElems g) := by
  obtain ⟨ts, h1, _, h3, _⟩ := clex_gap (.inl h)
  unfold gapElems
  rw [h1]
  exact (h3 h).1

theorem gapElems_final {g : Str} (h : FinalGap g) : FinalText g (gapElems g) := by
  obtain ⟨ts, h1, _, _, h4⟩ := clex_gap h
  unfold gapElems
  rw [h1]
  exact h4

theorem commentBlockText_wrote (hh : BlankHints c) (ha : AllowGap c NL) {x : Char} {s : Str} {es es' : List Elem}
    {K h : Str} (hx : HintOk NL h) (hK : Wrote c NL x s es es' K) :
    Wrote c NL x s es es' (commentBlockText c h K) := by
  unfold commentBlockText
  split
  · next hk =>
    subst hk
    split
    · by_cases hne : h = []
      · subst hne; exact hK
      · obtain ⟨y, h', rfl⟩ := List.exists_cons_of_ne_nil hne
        refine ⟨⟨?_, hK.rew, hK.com, fun hn hm => hn (hx.nl hm), .inr (.inr (.inr (.inl ⟨y, rfl, hx.blank y (by simp)⟩)))⟩,
          fun _ => .of_blank hx.blank⟩
        have := hK.text.append (.of_blank hx.blank)
        simpa using this
    · exact hK
  · next hne =>
    generalize h1 : (if K.head? = some '-' then (c.str .hintBeforeComment).getD [] else []) = a
    generalize h2 : (if K.getLast? = some ']' then (c.str .hintAfterMultilineComment).getD [] else []) = b
    have ok1 : HintOk NL a := by
      rw [← h1]; split
      · exact hintOk_of_opt hh ha (by decide)
      · exact .nil
    have ok2 : HintOk NL b := by
      rw [← h2]; split
      · exact hintOk_of_opt hh ha (by decide)
      · exact .nil
    refine ⟨⟨?_, hK.rew, hK.com, ?_, ?_⟩, fun ho => ?_⟩
    rotate_left 3
    · refine Lined.append ?_ (.of_blank ok2.blank)
      rw [← h1]
      split
      · next hd => exact (hK.own ho).hint hh hd
      · exact hK.own ho
    · have := ((Text.of_blank ok1.blank).append hK.text).append (.of_blank ok2.blank)
      simpa using this
    · intro hn hm
      rw [List.append_assoc, List.mem_append, List.mem_append] at hm
      rcases hm with h | h | h
      · exact hn (ok1.nl h)
      · exact hK.nl hn h
      · exact hn (ok2.nl h)
    · by_cases hae : a = []
      · subst hae
        rcases hK.head with h | h | h
        · exact .inl h
        · exact .inr (.inl h)
        · have := h.extend (t := []) (K := b) hne
          exact .inr (.inr (by simpa using this))
      · obtain ⟨y, a', rfl⟩ := List.exists_cons_of_ne_nil hae
        exact .inr (.inr (.inr (.inl ⟨y, rfl, ok1.blank y (by simp)⟩)))

theorem commentHint_block (hh : BlankHints c) (ha : AllowGap c NL) {env : Env} (hr : env.posRange = none ∨ Ranged c NL env)
    {a g b : Str} (hbuf : env.buf = a ++ (g ++ b)) (hg : FinalGap g) (hG : Ranged c NL env → Gap g) {lvl : Int} {p q : Nat} (hp : p = a.length)
    (hq : q = a.length + g.length) {h f r : Str}
    (hw : commentHint env c lvl ⟨p, q⟩ h f = .ok r) :
    (r = f ++ g ∧ Wrote c NL (lastOr ' ' f) g (gapElems g) (gapElems g) g) ∨
    ∃ K es', r = f ++ commentBlockText c h K ∧ Wrote c NL (lastOr ' ' f) g (gapElems g) es' K := by
  subst hp hq
  unfold commentHint at hw
  split at hw
  · next ho =>
    have hR : Ranged c NL env := by
      rcases hr with h1 | h1
      · rw [h1] at ho; cases ho
      · exact h1
    rw [substr_src hbuf] at hw
    cases hw
    obtain ⟨h1, h2⟩ := gapElems_gap (hG hR)
    exact .inl ⟨rfl, .copy hR.line hR.nl h1 h2⟩
  refine .inr ?_
  simp only [Res.bind_eq_ok] at hw
  obtain ⟨cbuf, h1, hw⟩ := hw
  rw [substr_src hbuf] at h1
  cases h1
  split at hw
  · cases hw
  · next ch hch =>
    simp only [Res.bind_eq_ok] at hw
    obtain ⟨full, h2, hw⟩ := hw
    obtain ⟨ts, k1, k2, k3, _⟩ := clex_gap hg
    obtain ⟨K, es', k3, k4⟩ := cchunk_wrote (c := c) (NL := NL) hh ha
      (e := ⟨env, g, a.length, commentRange env.posRange a.length, lvl⟩)
      ⟨hr.imp (fun h => by rw [h]; rfl) id, hr, a, b, rfl, hbuf⟩ k1 (k2.full fun hR => (k3 (hG hR)).2) hch h2
    rw [k3] at hw
    split at hw
    · cases hw
    · next block hd =>
      cases hw
      have hblock : block = K := by
        simp only [List.cons_append, List.nil_append, dropBytes] at hd
        split at hd
        · next hsz =>
          have : 0 + 1 - (f.getLast?.getD ' ').utf8Size = 0 := by
            have := Char.utf8Size_pos (f.getLast?.getD ' ')
            omega
          rw [this] at hd
          simp only [dropBytes, Option.some.injEq] at hd
          exact hd.symm
        · cases hd
      subst hblock
      refine ⟨_, es', rfl, ?_⟩
      unfold gapElems
      rw [k1]
      exact k4

theorem commentHint_wrote (hh : BlankHints c) (ha : AllowGap c NL) {env : Env} (hr : env.posRange = none ∨ Ranged c NL env)
    {a g b : Str} (hbuf : env.buf = a ++ (g ++ b)) (hg : FinalGap g) (hG : Ranged c NL env → Gap g) {lvl : Int} {p q : Nat} (hp : p = a.length)
    (hq : q = a.length + g.length) {h f r : Str} (hx : HintOk NL h)
    (hw : commentHint env c lvl ⟨p, q⟩ h f = .ok r) :
    ∃ K es', r = f ++ K ∧ Wrote c NL (lastOr ' ' f) g (gapElems g) es' K := by
  rcases commentHint_block hh ha hr hbuf hg hG hp hq hw with ⟨h1, h2⟩ | ⟨K, es', h1, h2⟩
  · exact ⟨_, _, h1, h2⟩
  · exact ⟨_, es', h1, commentBlockText_wrote hh ha hx h2⟩

/-- A gap of the source is written behind the text `P ++ g`. -/
theorem gapStep_wrote (hh : BlankHints c) (ha : Allow c NL) {env : Env} (hr : env.posRange = none ∨ Ranged c NL env)
    {a k b : Str} (hbuf : env.buf = a ++ (k ++ b)) (hk : FinalGap k) (hG : Ranged c NL env → Gap k) {p q : Nat} (hp : p = a.length)
    (hq : q = a.length + k.length) {h r P g s : Str} {es es' : List Elem} (hx : HintOk NL h) (hP : Firm P)
    (h0 : Wrote c NL (lastOr ' ' P) s es es' g) (hs : GapStep env c ⟨p, q⟩ h (P ++ g) r) :
    ∃ g' fs', r = P ++ g' ∧ Wrote c NL (lastOr ' ' P) (s ++ k) (es ++ gapElems k) (es' ++ fs') g' := by
  obtain ⟨p0, f0, g0, lvl, bb, h1, rfl, h3, h4⟩ := hs
  cases bb with
  | false =>
    simp only [ifNewLine, Bool.false_eq_true, if_false] at h3
    obtain ⟨K, fs', rfl, k4⟩ := commentHint_wrote hh ha.gap hr hbuf hk hG hp hq hx h3
    refine ⟨g ++ K, fs', by rw [← List.append_assoc, ← List.append_assoc, ← h1], h0.append (k4.weaken ?_)⟩
    intro hl
    rw [← lastOr_append, h1, lastOr_append]
    cases hf : f0.getLast? with
    | none => unfold lastOr at hl; rw [hf] at hl; exact absurd hl (by decide)
    | some y => unfold lastOr at hl ⊢; rw [hf] at hl ⊢; exact hl
  | true =>
    obtain ⟨K, hK, hE⟩ := ifNewLine_eff h3
    have hNL : NL := by
      rcases h4.1 rfl with h | ⟨t, ht, hn⟩
      · exact ha.opt h
      · obtain ⟨K', _, e, w⟩ := commentHint_wrote hh ha.gap hr hbuf hk hG hp hq hx ht
        refine Classical.byContradiction fun hn' => ?_
        rw [e] at hn
        unfold hasNewlines at hn
        simp only [List.nil_append, List.contains_iff_mem] at hn
        exact w.nl hn' hn
    obtain ⟨K', fs', e, k4⟩ := commentHint_wrote hh ha.gap hr hbuf hk hG hp hq .nil hK
    rw [List.nil_append] at e
    subst e
    have hE' := hE.lift p0
    rw [← h1] at hE'
    obtain ⟨g', e1, e2⟩ := Wrote.newline h0 k4 hP (indentText_blank hh lvl) hNL hE'
    exact ⟨g', fs', e1, e2⟩

end Luafmt
