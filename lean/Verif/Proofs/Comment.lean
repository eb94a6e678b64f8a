import Verif.Proofs.Seek

/-
`get_comment_start_ends_and_type`, characterised.
-/
namespace Luafmt
open Spec

instance (s : Str) : Decidable (∃ n, s = '[' :: eqs n) :=
  decidable_of_iff (s = '[' :: eqs (s.length - 1)) <| by
    constructor
    · intro h; exact ⟨_, h⟩
    · rintro ⟨n, rfl⟩; simp [eqs]

theorem mem_takeWhile {p : Char → Bool} {s : Str} {c : Char} (h : c ∈ s.takeWhile p) : p c = true := by
  induction s with
  | nil => simp at h
  | cons d s ih =>
    rw [List.takeWhile_cons] at h
    split at h
    · rename_i hd
      rcases List.mem_cons.1 h with rfl | h
      · exact hd
      · exact ih h
    · simp at h

theorem opener_eq (n : Nat) : opener n = '[' :: (eqs n ++ ['[']) := rfl

theorem getMultilineStringEnds_ok (i n start : Nat) (b rest : Str) (hb : LongBody n false b) :
    getMultilineStringEnds ⟨i, b ++ (closer n ++ rest)⟩ n start =
      ⟨i + b.length, i + b.length + n + 2, true, b, ⟨i + b.length + n + 2, rest⟩⟩ := by
  unfold getMultilineStringEnds
  apply multiGo_ok _ _ _ _ _ _ _ _ hb
  simp [closer_eq, eqs]
  omega

theorem opener_prefix (n : Nat) (s : Str) :
    opener n <+: '[' :: s ↔
      (s.takeWhile (· == '=')).length = n ∧ (s.dropWhile (· == '=')).head? = some '[' := by
  constructor
  · rintro ⟨t, ht⟩
    rw [opener_eq] at ht
    simp at ht
    subst ht
    have := takeWhile_eqs_append n ('[' :: t) (by simp)
    simp [eqs]
  · rintro ⟨h1, h2⟩
    have := eqs_split s
    rw [h1] at this
    cases hd : s.dropWhile (· == '=') with
    | nil => simp [hd] at h2
    | cons c r =>
      rw [hd] at h2 this
      simp at h2
      subst h2
      refine ⟨r, ?_⟩
      rw [opener_eq, this]
      simp

theorem onelineEnds_spec (i : Nat) (s : Str) :
    (∃ t r, s = t ++ '\n' :: r ∧ '\n' ∉ t ∧
      getOnelineCommentEnds ⟨i, s⟩ i = ⟨i + t.length, i + t.length + 1, true, t, ⟨i + t.length + 1, r⟩⟩) ∨
    ('\n' ∉ s ∧ getOnelineCommentEnds ⟨i, s⟩ i = ⟨i + s.length, i + s.length, true, s, ⟨i + s.length, []⟩⟩) := by
  unfold getOnelineCommentEnds
  rw [seekEnd_spec]
  have hsplit := List.takeWhile_append_dropWhile (p := fun c => !(c == '\n')) (l := s)
  have hnot : '\n' ∉ s.takeWhile (fun c => !(c == '\n')) := by
    intro h
    have := mem_takeWhile h
    simp at this
  cases hd : s.dropWhile (fun c => !(c == '\n')) with
  | nil =>
    right
    rw [hd] at hsplit
    simp at hsplit
    rw [hsplit]
    rw [hsplit] at hnot
    refine ⟨hnot, ?_⟩
    cases s <;> simp
  | cons c r =>
    left
    have hc := dropWhile_head (s := s) (p := fun c => !(c == '\n')) (c := c) (by rw [hd]; rfl)
    simp at hc
    subst hc
    rw [hd] at hsplit
    refine ⟨_, r, hsplit.symm, hnot, ?_⟩
    have : s ≠ [] := by rintro rfl; simp at hd
    simp [this]

theorem onelineEnds_nl (i : Nat) (t r : Str) (h : '\n' ∉ t) :
    getOnelineCommentEnds ⟨i, t ++ '\n' :: r⟩ i = ⟨i + t.length, i + t.length + 1, true, t, ⟨i + t.length + 1, r⟩⟩ := by
  rcases onelineEnds_spec i (t ++ '\n' :: r) with ⟨t', r', he, ht', h'⟩ | ⟨h', _⟩
  · have : t = t' ∧ r = r' := by
      have h1 := takeWhile_append_stop (p := fun c => !(c == '\n')) (a := t) (b := '\n' :: r)
        (by intro c hc; simp; rintro rfl; exact h hc) (by simp)
      have h2 := takeWhile_append_stop (p := fun c => !(c == '\n')) (a := t') (b := '\n' :: r')
        (by intro c hc; simp; rintro rfl; exact ht' hc) (by simp)
      rw [he] at h1
      refine ⟨h1.1.symm.trans h2.1, ?_⟩
      have := h1.2.symm.trans h2.2
      simpa using this
    obtain ⟨rfl, rfl⟩ := this
    exact h'
  · simp at h'

theorem onelineEnds_eof (i : Nat) (t : Str) (h : '\n' ∉ t) :
    getOnelineCommentEnds ⟨i, t⟩ i = ⟨i + t.length, i + t.length, true, t, ⟨i + t.length, []⟩⟩ := by
  rcases onelineEnds_spec i t with ⟨t', r', he, ht', h'⟩ | ⟨_, h'⟩
  · subst he; simp at h
  · exact h'

/-- A long comment. -/
theorem getCommentEnds_long (i n : Nat) (b rest : Str) (hb : LongBody n false b) :
    getCommentEnds ⟨i, opener n ++ (b ++ (closer n ++ rest))⟩ i =
      ⟨i + n + 2 + b.length + n + 2, some n, true, b, ⟨i + n + 2 + b.length + n + 2, rest⟩⟩ := by
  rw [opener_eq]
  cases n with
  | zero =>
    have := getMultilineStringEnds_ok (i + 2) 0 (i + 2) b rest hb
    simp [getCommentEnds, eqs, this]
  | succ n =>
    have h := takeWhile_eqs_append (n + 1) ('[' :: (b ++ (closer (n + 1) ++ rest))) (by simp)
    have hlv := getMultilineStringLevel_spec (i + 1) (i + 1) (eqs (n + 1) ++ ('[' :: (b ++ (closer (n + 1) ++ rest))))
      (Nat.le_refl _) (Or.inr rfl)
    rw [h.1, h.2] at hlv
    have hl : (eqs (n + 1)).length = n + 1 := by simp [eqs]
    rw [hl] at hlv
    have hm := getMultilineStringEnds_ok (i + 1 + (n + 1) + 1) (n + 1) (i + 1 + (n + 1) + 1) b rest hb
    simp only [getCommentEnds, List.cons_append, List.append_assoc, advance_cons, if_true, List.nil_append]
    have he : eqs (n + 1) ++ '[' :: (b ++ (closer (n + 1) ++ rest)) =
      '=' :: (eqs n ++ '[' :: (b ++ (closer (n + 1) ++ rest))) := by simp [eqs, List.replicate_succ]
    rw [he] at hlv ⊢
    simp only [hlv, if_true, advance_cons, hm]
    simp only [CommentEnds.mk.injEq, Chars.mk.injEq, true_and, and_true]
    omega

/-- What the function does on a text that does not open a long comment. -/
theorem getCommentEnds_other (i : Nat) (s : Str) (h : ∀ n, ¬ opener n <+: s) :
    getCommentEnds ⟨i, s⟩ i =
      (if (∃ n, s = '[' :: eqs n) then ⟨i + s.length, none, true, [], ⟨i + s.length, []⟩⟩
       else
        let e := getOnelineCommentEnds ⟨i, s⟩ i
        ⟨e.tokenEnd, none, e.succ, e.text, e.chars⟩ : CommentEnds) := by
  have pre : ∀ (p s : Str), '\n' ∉ p →
      (let e := getOnelineCommentEnds ⟨i + p.length, s⟩ (i + p.length)
       (⟨e.tokenEnd, none, e.succ, p ++ e.text, e.chars⟩ : CommentEnds)) =
      (let e := getOnelineCommentEnds ⟨i, p ++ s⟩ i
       ⟨e.tokenEnd, none, e.succ, e.text, e.chars⟩) := by
    intro p s hp
    rcases onelineEnds_spec (i + p.length) s with ⟨t, r, he, ht, h'⟩ | ⟨ht, h'⟩
    · subst he
      have := onelineEnds_nl i (p ++ t) r (by simp [hp, ht])
      rw [List.append_assoc] at this
      simp only [this, h']
      simp [Nat.add_assoc]
    · have := onelineEnds_eof i (p ++ s) (by simp [hp, ht])
      simp only [this, h']
      simp [Nat.add_assoc]
  cases s with
  | nil =>
    rw [if_neg (by rintro ⟨n, hn⟩; simp at hn)]
    simp [getCommentEnds]
  | cons c s =>
    by_cases hc : c = '['
    · subst hc
      cases s with
      | nil => rw [if_pos ⟨0, rfl⟩]; simp [getCommentEnds]
      | cons d s =>
        by_cases hd : d = '='
        · subst hd
          simp only [getCommentEnds, advance_cons, if_true]
          have hlv := getMultilineStringLevel_spec (i + 1) (i + 1) ('=' :: s) (Nat.le_refl _) (Or.inr rfl)
          obtain ⟨k, hk⟩ : ∃ k, k = (('=' :: s).takeWhile (· == '=')).length := ⟨_, rfl⟩
          obtain ⟨s1, hs1⟩ : ∃ s1, s1 = ('=' :: s).dropWhile (· == '=') := ⟨_, rfl⟩
          have hsp := eqs_split ('=' :: s)
          have hn := h k
          rw [opener_prefix] at hn
          rw [← hk, ← hs1] at hlv hsp
          rw [← hk, ← hs1] at hn
          have hlk : (eqs k).length = k := by simp [eqs]
          simp only [hlv]
          cases s1 with
          | nil =>
            rw [if_pos ⟨k, by rw [hsp]; simp⟩]
            rw [hsp]
            simp [hlk]
            omega
          | cons e r =>
            have he : e ≠ '[' := by
              rintro rfl
              exact hn ⟨rfl, rfl⟩
            have hne : e ≠ '=' := by
              have := dropWhile_head (s := '=' :: s) (p := (· == '=')) (c := e) (by rw [← hs1]; rfl)
              simpa using this
            rw [if_neg]
            · simp only [if_neg he]
              have := pre ('[' :: eqs k) (e :: r) (by simp [eqs])
              simp only [List.length_cons, hlk] at this
              rw [show i + 1 + k = i + (k + 1) by omega]
              simp only [this]
              rw [hsp]
              simp
            · rintro ⟨m, hm⟩
              rw [hsp] at hm
              simp only [List.cons.injEq, true_and] at hm
              have : e ∈ eqs m := by rw [← hm]; simp
              simp [eqs] at this
              exact hne this.2
        · by_cases hd2 : d = '['
          · subst hd2
            exact absurd (by exact ⟨s, rfl⟩) (h 0)
          · rw [if_neg]
            · simp only [getCommentEnds, advance_cons, if_true, if_neg hd, if_neg hd2]
              exact pre ['['] (d :: s) (by simp)
            · rintro ⟨m, hm⟩
              simp at hm
              have : d ∈ eqs m := by rw [← hm]; simp
              simp [eqs] at this
              exact hd this.2
    · rw [if_neg (by rintro ⟨n, hn⟩; simp [hc] at hn)]
      simp [getCommentEnds, if_neg hc]

theorem LineText.bracket_nl {t : Str} {r : Str} (h : ∃ n, t ++ '\n' :: r = '[' :: eqs n) : False := by
  obtain ⟨n, hn⟩ := h
  have : '\n' ∈ '[' :: eqs n := by rw [← hn]; simp
  simp [eqs] at this

/-- A one-line comment that ends with a line break. -/
theorem getCommentEnds_line (i : Nat) (t r : Str) (h : LineText t) :
    getCommentEnds ⟨i, t ++ '\n' :: r⟩ i = ⟨i + t.length + 1, none, true, t, ⟨i + t.length + 1, r⟩⟩ := by
  rw [getCommentEnds_other, if_neg (fun h' => LineText.bracket_nl h'), onelineEnds_nl _ _ _ h.1]
  rintro n ⟨u, hu⟩
  apply h.2 n
  -- the opener has no line break, so it lies inside `t`
  rcases List.append_eq_append_iff.1 hu with ⟨a, h1, h2⟩ | ⟨a, h1, h2⟩
  · exact ⟨a, h1.symm⟩
  · cases a with
    | nil => exact ⟨[], by simpa using h1⟩
    | cons x a =>
      simp at h2
      have : '\n' ∈ opener n := by rw [h1, ← h2.1]; simp
      simp [opener_eq, eqs] at this

/-- A one-line comment at the end of the text; an opening bracket without its second `[` is dropped. -/
theorem getCommentEnds_eof (i : Nat) (t : Str) (h : LineText t) :
    getCommentEnds ⟨i, t⟩ i =
      ⟨i + t.length, none, true, if (∃ n, t = '[' :: eqs n) then [] else t, ⟨i + t.length, []⟩⟩ := by
  rw [getCommentEnds_other _ _ h.2, onelineEnds_eof _ _ h.1]
  split <;> rfl

/-- All ways to read a comment. -/
theorem getCommentEnds_fwd (i : Nat) (s : Str) (h : (getCommentEnds ⟨i, s⟩ i).succ = true) :
    (∃ t r, s = t ++ '\n' :: r ∧ LineText t) ∨ LineText s ∨
    (∃ n b r, s = opener n ++ (b ++ (closer n ++ r)) ∧ LongBody n false b) := by
  by_cases ho : ∃ n, opener n <+: s
  · right; right
    obtain ⟨n, u, hu⟩ := ho
    subst hu
    have key : ∀ j, (getMultilineStringEnds ⟨j, u⟩ n j).succ = true →
        ∃ b r, u = b ++ (closer n ++ r) ∧ LongBody n false b := by
      intro j hj
      obtain ⟨r, h1, h2, _⟩ := multiGo_fwd _ _ _ _ _ _ _ rfl hj
      exact ⟨_, r, h1, h2⟩
    have : ∃ j, (getMultilineStringEnds ⟨j, u⟩ n j).succ = true := by
      rw [opener_eq] at h
      cases n with
      | zero =>
        refine ⟨i + 2, ?_⟩
        simpa [getCommentEnds, eqs] using h
      | succ n =>
        have h1 := takeWhile_eqs_append (n + 1) ('[' :: u) (by simp)
        have hlv := getMultilineStringLevel_spec (i + 1) (i + 1) (eqs (n + 1) ++ ('[' :: u))
          (Nat.le_refl _) (Or.inr rfl)
        rw [h1.1, h1.2] at hlv
        have hl : (eqs (n + 1)).length = n + 1 := by simp [eqs]
        rw [hl] at hlv
        refine ⟨i + 1 + (n + 1) + 1, ?_⟩
        have he : eqs (n + 1) ++ '[' :: u = '=' :: (eqs n ++ '[' :: u) := by simp [eqs, List.replicate_succ]
        simp only [getCommentEnds, List.cons_append, List.append_assoc, advance_cons, if_true, List.nil_append] at h
        rw [he] at hlv h
        simp only [hlv, if_true, advance_cons] at h
        exact h
    obtain ⟨j, hj⟩ := this
    obtain ⟨b, r, rfl, hb⟩ := key j hj
    exact ⟨n, b, r, rfl, hb⟩
  · have ho : ∀ n, ¬ opener n <+: s := fun n hn => ho ⟨n, hn⟩
    rcases onelineEnds_spec i s with ⟨t, r, he, ht, h'⟩ | ⟨ht, h'⟩
    · left
      refine ⟨t, r, he, ht, fun n hn => ho n ?_⟩
      rw [he]
      exact hn.trans (List.prefix_append ..)
    · exact Or.inr (Or.inl ⟨ht, ho⟩)

end Luafmt
