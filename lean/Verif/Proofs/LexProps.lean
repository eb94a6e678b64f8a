import Verif.Proofs.LexAll
import Verif.Proofs.LuaString
import Verif.Spec.Numeral

/-
Further facts about the lexer that the property theorems need.
-/
namespace Luafmt
open Spec

/-- The tokens of a text, without positions. -/
def toksOf (s : Str) : Option (List Token) := (lexLua s).map (·.map TokL.tok)

theorem lexStep_tok_shift {i : Nat} {s : Str} {l : Nat} {t : Token} {r : Nat} {c : Chars}
    (h : lexStep ⟨i, s⟩ = .tok l t r c) (j : Nat) :
    ∃ l' r' k, lexStep ⟨j, s⟩ = .tok l' t r' ⟨k, c.rest⟩ := by
  obtain ⟨_, _, _, u, hu, _, _, h4⟩ := lexStep_fwd h
  rcases h4 with ⟨h4, h5⟩ | ⟨x, h4, h5, h6, h7⟩
  · rw [hu, h4, lexStep_ok j t c.rest h5]
    exact ⟨_, _, _, rfl⟩
  · subst h4
    obtain ⟨y, hy, hn⟩ := h7
    rw [hu, h6, h5, hy]
    simp only [List.append_nil]
    refine ⟨j, j + 2 + y.length, j + 2 + y.length, ?_⟩
    have := getShebangEnds_eof (j + 2) y hn
    simp [lexStep, single, double, lexHash, this]

theorem lexStep_skip_shift {i : Nat} {s : Str} {c : Chars} (h : lexStep ⟨i, s⟩ = .skip c) (j : Nat) :
    ∃ k, lexStep ⟨j, s⟩ = .skip ⟨k, c.rest⟩ := by
  rcases lexStep_skip_fwd h with ⟨p, hs, hp, _⟩ | ⟨t, rfl, ht, rfl⟩
  · rw [hs, lexStep_skip_ok j p _ hp]
    exact ⟨_, rfl⟩
  · rw [lexStep_final_ok j t ht]
    exact ⟨_, rfl⟩

theorem lexStep_bad_shift {i : Nat} {s : Str} (h : lexStep ⟨i, s⟩ = .bad) (j : Nat) : lexStep ⟨j, s⟩ = .bad := by
  cases hj : lexStep ⟨j, s⟩ with
  | bad => rfl
  | eof => rw [lexStep_eof] at hj; subst hj; simp [lexStep] at h
  | skip c =>
    obtain ⟨k, hk⟩ := lexStep_skip_shift hj i
    rw [hk] at h; cases h
  | tok l t r c =>
    obtain ⟨_, _, _, hk⟩ := lexStep_tok_shift hj i
    rw [hk] at h; cases h

/-- Token kinds do not depend on where the text starts. -/
theorem lexFrom_shift (i j : Nat) (s : Str) :
    (lexFrom i s).map (·.map TokL.tok) = (lexFrom j s).map (·.map TokL.tok) := by
  induction hl : s.length using Nat.strongRecOn generalizing s i j with
  | _ n ih =>
  cases hs : lexStep ⟨i, s⟩ with
  | eof => rw [lexStep_eof] at hs; subst hs; simp [lexFrom_nil]
  | bad => rw [lexFrom_bad hs, lexFrom_bad (lexStep_bad_shift hs j)]
  | skip c =>
    have hlt := lexStep_skip_lt hs
    obtain ⟨k, hk⟩ := lexStep_skip_shift hs j
    rw [lexFrom_skip hs, lexFrom_skip hk]
    exact ih _ (by omega) _ _ _ rfl
  | tok l t r c =>
    have hlt := lexStep_tok_lt hs
    obtain ⟨l', r', k, hk⟩ := lexStep_tok_shift hs j
    rw [lexFrom_tok hs, lexFrom_tok hk]
    have := ih _ (by omega) c.idx k c.rest rfl
    simp only [Option.map_map] at this ⊢
    have e : ∀ (x : TokL), (List.map TokL.tok ∘ fun y => x :: y) = (fun y => x.tok :: y) ∘ List.map TokL.tok := by
      intro x; funext y; simp
    rw [e, e, ← Option.map_map, ← Option.map_map, this]

theorem toksOf_eq (i : Nat) (s : Str) : toksOf s = (lexFrom i s).map (·.map TokL.tok) := by
  unfold toksOf
  rw [lexLua_eq, lexFrom_shift 0 i]

/-- A delimited token at the front of a text is read, and the rest of the text is read as before. -/
theorem toksOf_tok (t : Token) (s : Str) (h : Reads t s.head?) :
    toksOf (spell t ++ s) = (toksOf s).map (t :: ·) := by
  rw [toksOf_eq 0, lexFrom_tok (lexStep_ok 0 t s h)]
  simp only
  rw [toksOf_eq (0 + (spell t).length) s, Option.map_map, Option.map_map]
  rfl

theorem toksOf_gap (g s : Str) (h : Gap g) : toksOf (g ++ s) = toksOf s := by
  rw [toksOf_eq 0, lexFrom_gap h, ← toksOf_eq]

/-- A text that can be lexed has only well-formed tokens. -/
theorem lexFrom_tokOk (i : Nat) (s : Str) (toks : List TokL) (h : lexFrom i s = some toks) :
    ∀ x ∈ toks, x.tok = .eof ∨ ∃ n, Reads x.tok n := by
  intro x hx
  obtain ⟨l, e, hm, hw0⟩ := lexFrom_woven i s toks h
  have hw : Woven l e := by
    rcases hw0 with ⟨_, hw⟩ | ⟨_, _, _, _, _, _, hw⟩ <;> exact hw
  have hmem : x.tok ∈ l.map Prod.snd ++ [.eof] := by
    rw [← hm]; exact List.mem_map_of_mem hx
  simp at hmem
  rcases hmem with ⟨g, hg⟩ | hmem
  · right
    clear hm h hx hw0
    induction l with
    | nil => simp at hg
    | cons p l ih =>
      obtain ⟨g', t'⟩ := p
      obtain ⟨h1, h2, h3⟩ := hw
      simp at hg
      rcases hg with ⟨rfl, rfl⟩ | hg
      · exact ⟨_, h2⟩
      · exact ih h3 hg
  · exact Or.inl hmem

theorem strState_convert (esc : Bool) (s : Str) (h : strState '\'' esc s = some false) :
    strState '"' esc (charToNormalGo esc s) = some false := by
  induction s generalizing esc with
  | nil => simpa [charToNormalGo, strState] using h
  | cons c s ih =>
    simp only [strState] at h
    split at h
    · simp at h
    · have := ih _ h
      simp only [charToNormalGo]
      by_cases hc : (c == '"' && !esc) = true
      · simp at hc
        obtain ⟨rfl, rfl⟩ := hc
        simp at this
        simp [strState, this]
      · rw [if_neg hc]
        have hc' : ¬ (!esc && c == '"') = true := by
          rw [Bool.and_comm]; exact hc
        simp only [strState]
        rw [if_neg hc']
        exact this

theorem mant_dec (a : Str) (ha : Digits a) (hne : a ≠ []) : Mant a := by
  cases a with
  | nil => exact absurd rfl hne
  | cons d a =>
    exact .digit d a (ha d (by simp)) (fun c hc => by simp [isNumChar, ha c (List.mem_cons_of_mem _ hc)])

theorem mant_dot (a b : Str) (ha : Digits a) (hb : Digits b) (hne : a ++ b ≠ []) : Mant (a ++ '.' :: b) := by
  cases a with
  | nil =>
    cases b with
    | nil => simp at hne
    | cons d b =>
      exact .dot d b (hb d (by simp)) (fun c hc => by simp [isNumChar, hb c (List.mem_cons_of_mem _ hc)])
  | cons d a =>
    refine .digit d _ (ha d (by simp)) (fun c hc => ?_)
    simp at hc
    rcases hc with hc | rfl | hc
    · simp [isNumChar, ha c (by simp [hc])]
    · decide
    · simp [isNumChar, hb c hc]

theorem not_ident_digit {c : Char} (h : isIdent c = false) : isDigit c = false := by
  simp [isIdent] at h
  exact h.1.2

theorem not_ident_hex {c : Char} (h : isIdent c = false) : isHex c = false := by
  have h1 := not_ident_digit h
  simp [isIdent, isAlpha] at h
  simp only [isHex, h1, Bool.false_or, Bool.or_eq_false_iff, Bool.and_eq_false_iff, decide_eq_false_iff_not, Nat.not_le]
  omega

theorem hex_no_marks {c : Char} (h : isHex c = true) : c ≠ '.' ∧ c ≠ 'p' ∧ c ≠ 'P' ∧ c ≠ 'x' ∧ c ≠ 'X' ∧ c ≠ '+' ∧ c ≠ '-' := by
  refine ⟨?_, ?_, ?_, ?_, ?_, ?_, ?_⟩ <;> (rintro rfl; simp [isHex, isDigit] at h)

/-- A supported Lua numeral that ends where Lua ends it is delimited. -/
theorem numReads_of_numeral (s rest : Str) (hs : Numeral s) (hu : ¬ Unsupported s) (hr : EndsNumeral rest) :
    NumReads s rest.head? := by
  have hd : ∀ c, rest.head? = some c → isDigit c = false := fun c hc => not_ident_digit (hr c hc).1
  have core : ∀ m x, Mant m → Exponent ['e', 'E'] x → ¬ '+' ∈ m ++ x → NumReads (m ++ x) rest.head? := by
    intro m x hm hx hp
    rcases hx with rfl | ⟨e, sg, ds, rfl, he, hsg, hds, hne⟩
    · rw [List.append_nil]
      refine .plain m _ hm ?_ ?_
      · intro c hc
        obtain ⟨h1, h2⟩ := hr c hc
        refine ⟨?_, ?_, ?_⟩
        · simp [isNumChar, not_ident_digit h1, h2]
        · rintro rfl; simp [isIdent, isAlpha] at h1
        · rintro rfl; simp [isIdent, isAlpha] at h1
      · intro _ hx
        have := (hr 'x' hx).1
        simp [isIdent, isAlpha] at this
    · have he : e = 'e' ∨ e = 'E' := by simpa using he
      rcases hsg with rfl | rfl | rfl
      · exact .exp m e ds _ hm he hds hd (fun h => absurd h hne)
      · simp at hp
      · exact .expNeg m e ds _ hm he hds hd (fun h => absurd h hne)
  cases hs with
  | dec a b x ha hb hab hx hb0 =>
    by_cases hbe : b = []
    · subst hbe
      simp only [if_true, List.append_nil] at hu ⊢
      exact core a x (mant_dec a ha (hb0 rfl)) hx (fun h => hu (Or.inl h))
    · simp only [hbe, if_false] at hu ⊢
      exact core _ x (mant_dot a b ha hb hab) hx (fun h => hu (Or.inl h))
  | decDot a x ha hne hx =>
    exact core _ x (mant_dot a [] ha (by simp [Digits]) (by simpa using hne)) hx (fun h => hu (Or.inl h))
  | hex m a b x hm ha hb hab hx =>
    have hm' : m = 'x' := by
      rcases hm with rfl | rfl
      · rfl
      · exact absurd (Or.inr (Or.inl (by simp))) hu
    subst hm'
    have hb' : b = [] := by
      cases b with
      | nil => rfl
      | cons y b => exact absurd (Or.inr (Or.inr ⟨by simp, Or.inl (by simp)⟩)) hu
    subst hb'
    have hx' : x = [] := by
      rcases hx with rfl | ⟨e, sg, ds, rfl, he, _⟩
      · rfl
      · exfalso
        apply hu
        refine Or.inr (Or.inr ⟨by simp, Or.inr ?_⟩)
        simp at he
        rcases he with rfl | rfl
        · left; simp
        · right; simp
    subst hx'
    simp only [if_true, List.append_nil] at hab ⊢
    exact .hex a _ ha (fun c hc => not_ident_hex (hr c hc).1) (fun h => absurd h hab)
  | hexDot m a x hm ha hne hx =>
    exfalso
    apply hu
    rcases hm with rfl | rfl
    · exact Or.inr (Or.inr ⟨by simp, Or.inl (by simp)⟩)
    · exact Or.inr (Or.inl (by simp))

/-- Without backslashes, the body of a long bracket ends at the first closing bracket. -/
theorem longBody_of_first (n : Nat) (b : Str) (hb : '\\' ∉ b)
    (hf : ∀ a c, b ++ closer n = a ++ (closer n ++ c) → b.length ≤ a.length) : LongBody n false b := by
  induction b with
  | nil => simp [LongBody]
  | cons c s ih =>
    simp only [LongBody]
    have hc : c ≠ '\\' := by rintro rfl; simp at hb
    refine ⟨?_, ?_⟩
    · rintro ⟨_, u, hu⟩
      have := hf [] u (by simp [hu])
      simp at this
    · rw [show (c == '\\') = false by simpa using hc]
      apply ih
      · intro h; exact hb (List.mem_cons_of_mem _ h)
      · intro a d h
        have := hf (c :: a) d (by simp [h])
        simpa using this

end Luafmt
