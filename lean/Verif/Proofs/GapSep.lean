import Verif.Proofs.GapWrite

/-
When the text written for a gap separates the two tokens around it.
-/
namespace Luafmt
open Spec

variable {c : Config} {NL : Prop}

/-- The text is empty or starts with a blank. -/
def BlankHead (K : Str) : Prop := K = [] ∨ ∃ ch, K.head? = some ch ∧ IsBlank ch

theorem BlankHead.append {g K : Str} (h : BlankHead g) (h' : BlankHead K) : BlankHead (g ++ K) := by
  cases g with
  | nil => exact h'
  | cons y g =>
    rcases h with h | ⟨ch, h, hb⟩
    · cases h
    · exact .inr ⟨ch, by simpa using h, hb⟩

theorem BlankHead.prefix {g K : Str} (h : BlankHead (g ++ K)) : BlankHead g := by
  cases g with
  | nil => exact .inl rfl
  | cons y g =>
    rcases h with h | ⟨ch, h, hb⟩
    · cases h
    · exact .inr ⟨ch, by simpa using h, hb⟩

theorem Spec.Blank.head {K : Str} (h : Blank K) : BlankHead K := by
  cases K with
  | nil => exact .inl rfl
  | cons y K => exact .inr ⟨y, rfl, h y (by simp)⟩

theorem rewrites_none {es es' : List Elem} (h : Rewrites c es es') (hr : c.bool .removeComments = some true)
    (hl : c.lineRange = none) (hc : Comments es') : es' = [] := by
  induction h with
  | nil => rfl
  | tok => exact absurd (hc _ (List.mem_cons_self ..)) (by simp [Elem.isComment])
  | comment h => exact absurd hr h
  | noComment _ _ _ ih => exact ih hc
  | kept h => exact absurd hl h
  | dropSep _ _ _ _ ih => exact ih hc
  | addSep => exact absurd (hc _ (List.mem_cons_self ..)) (by simp [Elem.isComment])

theorem text_nil_blank {s : Str} (h : Text [] s) : Blank s := by
  generalize he : ([] : List Elem) = es at h
  induction h with
  | nil => intro _ h; cases h
  | blank hb _ ih =>
    intro ch hc
    rcases List.mem_cons.mp hc with rfl | hc
    · exact hb
    · exact ih he ch hc
  | elem => cases he

theorem comment_head {e : Elem} (h : e.isComment = true) : e.text.head? = some '-' := by
  cases e with
  | tok => cases h
  | line => rfl
  | long => rfl

theorem text_head {es : List Elem} {s : Str} (h : Text es s) (hc : Comments es) :
    BlankHead s ∨ s.head? = some '-' := by
  cases h with
  | nil => exact .inl (.inl rfl)
  | blank hb _ => exact .inl (.inr ⟨_, rfl, hb⟩)
  | @elem e es s _ _ =>
    right
    have := comment_head (hc e (by simp))
    cases ht : e.text with
    | nil => rw [ht] at this; cases this
    | cons y l => rw [ht] at this; simpa using this

theorem commentBlockText_head (hh : BlankHints c) (hc : HintedComments c) {h K s : Str} {x : Char} {es es' : List Elem}
    (hx : Blank h) (hK : Wrote c NL x s es es' K) : BlankHead (commentBlockText c h K) := by
  unfold commentBlockText
  split
  · split
    · exact hx.head
    · exact .inl rfl
  · next hne =>
    rw [List.append_assoc]
    by_cases hm : K.head? = some '-'
    · rw [if_pos hm]
      rcases hc with hc | ⟨a, ha, hane⟩
      · have := rewrites_none hK.rew hc.1 hc.2 hK.com
        have ht := hK.text
        rw [this] at ht
        rcases (text_nil_blank ht).head with h | ⟨ch, h, hb⟩
        · exact absurd h hne
        · rw [hm] at h
          cases h
          exact absurd hb (by decide)
      · rw [ha, Option.getD_some]
        obtain ⟨y, a', rfl⟩ := List.exists_cons_of_ne_nil hane
        exact .inr ⟨y, rfl, hh.hints .hintBeforeComment (by decide) _ ha y (by simp)⟩
    · rw [if_neg hm]
      rcases text_head hK.text hK.com with h | h
      · simp only [List.nil_append]
        rcases h with h | ⟨ch, h, hb⟩
        · exact absurd h hne
        · obtain ⟨y, K', rfl⟩ := List.exists_cons_of_ne_nil hne
          exact .inr ⟨ch, by simpa using h, hb⟩
      · exact absurd h hm

theorem commentBlockText_ne {h K : Str} (hz : c.bool .replaceZeroSpacesWithHint = some true) (hne : h ≠ []) :
    commentBlockText c h K ≠ [] := by
  unfold commentBlockText
  rw [if_pos hz]
  split
  · exact hne
  · next hk => simp [hk]

/-- The written text is empty, or starts with a blank or as the source text does. -/
def HeadOk (s K : Str) : Prop := BlankHead K ∨ K.head? = s.head?

theorem HeadOk.nil : HeadOk [] [] := .inr rfl

theorem HeadOk.grow {s k g K : Str} (h : HeadOk s g) (hg : g ≠ []) : HeadOk (s ++ k) (g ++ K) := by
  obtain ⟨y, g', rfl⟩ := List.exists_cons_of_ne_nil hg
  rcases h with (h | ⟨ch, h, hb⟩) | h
  · cases h
  · exact .inl (.inr ⟨ch, by simpa using h, hb⟩)
  · right
    cases s with
    | nil => cases h
    | cons z s => simpa using h

theorem HeadOk.same {s k g : Str} (h : HeadOk s g) (hk : s = [] ∨ k = []) : HeadOk (s ++ k) (g ++ k) := by
  by_cases hg : g = []
  · subst hg
    rcases hk with rfl | rfl
    · exact .inr rfl
    · simpa using h
  · exact h.grow hg

theorem HeadOk.blank {s k g K : Str} (h : HeadOk s g) (hK : BlankHead K) : HeadOk (s ++ k) (g ++ K) := by
  by_cases hg : g = []
  · subst hg; exact .inl hK
  · exact h.grow hg

theorem HeadOk.prefix {s a d : Str} (h : HeadOk s (a ++ d)) (ha : a ≠ []) : HeadOk s a := by
  obtain ⟨y, a', rfl⟩ := List.exists_cons_of_ne_nil ha
  rcases h with h | h
  · exact .inl h.prefix
  · exact .inr h

theorem HeadOk.cut {s k a d K : Str} (h : HeadOk s (a ++ d)) (hK : BlankHead K) : HeadOk (s ++ k) (a ++ K) := by
  by_cases ha : a = []
  · subst ha; exact .inl hK
  · exact (h.prefix ha).grow ha

/-- What is known about the text `K` of a gap with the source text `s`; `b` tells whether there is a hint for each part of the
gap, `m` whether the beginning of the text matters. -/
structure Sepd (c : Config) (x : Char) (m : Prop) (b : Bool) (s K : Str) : Prop where
  head : HintedComments c → m → HeadOk s K
  ne : c.bool .replaceZeroSpacesWithHint = some true → x ≠ '\n' → b = true → K ≠ [] ∨ s = []

theorem Sepd.nil {x : Char} {m : Prop} {b : Bool} : Sepd c x m b [] [] := ⟨fun _ _ => .nil, fun _ _ _ => .inr rfl⟩

/-- The text of a gap is copied. -/
theorem Sepd.copy {x : Char} {m : Prop} {B B' : Bool} {s k g : Str} (h0 : Sepd c x m B s g) (hB : B' = true → B = true)
    (hm : m → s = [] ∨ k = []) : Sepd c x m B' (s ++ k) (g ++ k) := by
  refine ⟨fun hc h => (h0.head hc h).same (hm h), fun hz hx hb => ?_⟩
  by_cases hk : k = []
  · subst hk
    simpa using h0.ne hz hx (hB hb)
  · exact .inl (by simp [hk])

theorem gapStep_sepd (hh : BlankHints c) (ha : Allow c NL) {env : Env} (hr : env.posRange = none ∨ Ranged c NL env)
    {a k b : Str} (hbuf : env.buf = a ++ (k ++ b)) (hk : FinalGap k) (hG : Ranged c NL env → Gap k) {p q : Nat}
    (hp : p = a.length) (hq : q = a.length + k.length) {h P s g g' : Str} {m : Prop} {B B' : Bool} (hx : HintOk NL h)
    (hP : Firm P) (hB : B' = true → B = true ∧ (k = [] ∨ h ≠ [])) (hm : m → s = [] ∨ k = [])
    (h0 : Sepd c (lastOr ' ' P) m B s g) (hs : GapStep env c ⟨p, q⟩ h (P ++ g) (P ++ g')) :
    Sepd c (lastOr ' ' P) m B' (s ++ k) g' := by
  obtain ⟨p0, f0, g0, lvl, bb, h1, h2, h3, h4⟩ := hs
  cases bb with
  | false =>
    simp only [ifNewLine, Bool.false_eq_true, if_false] at h3
    rcases commentHint_block hh ha.gap hr hbuf hk hG hp hq h3 with ⟨rfl, k4⟩ | ⟨K, fs', rfl, k4⟩
    · rw [← List.append_assoc, ← h1, List.append_assoc] at h2
      have h2 := List.append_cancel_left h2
      subst h2
      exact h0.copy (fun hb => (hB hb).1) hm
    rw [← List.append_assoc, ← h1, List.append_assoc] at h2
    have h2 := List.append_cancel_left h2
    subst h2
    refine ⟨fun hc hmm => (h0.head hc hmm).blank (commentBlockText_head hh hc hx.blank k4), fun hz hxn hb => ?_⟩
    obtain ⟨hb, hb'⟩ := hB hb
    rcases hb' with rfl | hne
    · rcases h0.ne hz hxn hb with h | h
      · exact .inl (by simp [h])
      · exact .inr (by simp [h])
    · have := commentBlockText_ne (K := K) hz hne
      exact .inl (by simp [this])
  | true =>
    obtain ⟨K0, hK, hE⟩ := ifNewLine_eff h3
    have hE' := hE.lift p0
    rw [← h1, ← h2] at hE'
    have hbl : (K0 = k ∨ (HintedComments c → BlankHead K0)) := by
      rcases commentHint_block hh ha.gap hr hbuf hk hG hp hq hK with ⟨e, k4⟩ | ⟨K, fs', e, k4⟩
      · exact .inl (by simpa using e)
      · rw [List.nil_append] at e
        subst e
        exact .inr fun hc => commentBlockText_head hh hc (fun _ h => (by cases h)) k4
    have hi := indentText_blank hh lvl
    have hnl : Blank ('\n' :: indentText c lvl) := by
      intro ch hc
      rcases List.mem_cons.mp hc with rfl | hc
      · decide
      · exact hi ch hc
    obtain ⟨t, d, e1, e2, e0⟩ := hE'
    rcases e0 with ⟨hne, e0⟩ | ⟨rfl, a', d', e3, e4, e5, e6⟩
    · have main : ∀ nl : Str, Blank nl → g' = g ++ (t ++ nl) → Sepd c (lastOr ' ' P) m B' (s ++ k) g' := by
        rintro nl hnl rfl
        refine ⟨fun hc hmm => ?_, fun _ _ _ => .inl (by simp [hne])⟩
        rcases hbl with hbl | hbl
        · rw [hbl] at e1
          have hk0 : k ≠ [] := by rw [e1]; simp [hne]
          have hs0 : s = [] := (hm hmm).resolve_right hk0
          subst hs0
          by_cases hg : g = []
          · subst hg
            right
            obtain ⟨y, t', rfl⟩ := List.exists_cons_of_ne_nil hne
            rw [e1]; rfl
          · exact (h0.head hc hmm).grow hg
        · have := hbl hc
          rw [e1] at this
          exact (h0.head hc hmm).blank (this.prefix.append hnl.head)
      rcases e0 with ⟨_, h⟩ | h
      · rw [List.append_assoc] at h; exact main _ hi (List.append_cancel_left h)
      · rw [List.append_assoc] at h; exact main _ hnl (List.append_cancel_left h)
    · obtain ⟨a'', rfl, rfl⟩ := firm_split hP e3 e4 e5
      rcases e6 with ⟨e6, h⟩ | h
      · rw [List.append_assoc] at h
        have h := List.append_cancel_left h
        subst h
        refine ⟨fun hc hmm => (h0.head hc hmm).cut hi.head, fun _ hxn _ => ?_⟩
        left
        intro he
        simp only [List.append_eq_nil_iff] at he
        rw [he.1, List.append_nil] at e6
        refine hxn ?_
        unfold lastOr; rw [e6]; rfl
      · rw [List.append_assoc] at h
        have h := List.append_cancel_left h
        subst h
        exact ⟨fun hc hmm => (h0.head hc hmm).cut hnl.head, fun _ _ _ => .inl (by simp)⟩

end Luafmt
