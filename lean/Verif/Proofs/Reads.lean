import Verif.Proofs.Comment

/-
When a token is read from a text: the shape of the token and the character behind it.
-/
namespace Luafmt
open Spec

/-- Digits and dots, as accepted by `get_float_end`. -/
def isNumChar (c : Char) : Bool := isDigit c || c == '.'

/-- The part of a numeral before the exponent. -/
inductive Mant : Str → Prop
  | digit (d : Char) (m : Str) : isDigit d = true → (∀ c ∈ m, isNumChar c = true) → Mant (d :: m)
  | dot (d : Char) (m : Str) : isDigit d = true → (∀ c ∈ m, isNumChar c = true) → Mant ('.' :: d :: m)

/-- A numeral and the character behind it. -/
inductive NumReads : Str → Option Char → Prop
  | hex (h : Str) (n : Option Char) : (∀ c ∈ h, isHex c = true) → (∀ c, n = some c → isHex c = false) →
      (h = [] → n ≠ none) → NumReads ('0' :: 'x' :: h) n
  | plain (m : Str) (n : Option Char) : Mant m →
      (∀ c, n = some c → isNumChar c = false ∧ c ≠ 'e' ∧ c ≠ 'E') → (m = ['0'] → n ≠ some 'x') → NumReads m n
  | exp (m : Str) (e : Char) (k : Str) (n : Option Char) : Mant m → e = 'e' ∨ e = 'E' →
      (∀ c ∈ k, isDigit c = true) → (∀ c, n = some c → isDigit c = false) →
      (k = [] → n ≠ none ∧ n ≠ some '-') → NumReads (m ++ e :: k) n
  | expNeg (m : Str) (e : Char) (k : Str) (n : Option Char) : Mant m → e = 'e' ∨ e = 'E' →
      (∀ c ∈ k, isDigit c = true) → (∀ c, n = some c → isDigit c = false) →
      (k = [] → n ≠ none) → NumReads (m ++ e :: '-' :: k) n

/-- A name or keyword. -/
def IsWord (s : Str) : Prop :=
  ∃ c r, s = c :: r ∧ (isAlpha c = true ∨ c = '_') ∧ ∀ d ∈ r, isIdent d = true

/-- The character `c` right behind the token would be read as a part of it. -/
def fuse : Token → Char → Bool
  | .opDivision, c => c == '/'
  | .opLessThan, c => c == '<' || c == '='
  | .opGreaterThan, c => c == '>' || c == '='
  | .tilde, c => c == '='
  | .equalsSign, c => c == '='
  | .colon, c => c == ':'
  | .opLength, c => c == '!'
  | .minus, c => c == '-'
  | .period, c => c == '.' || isDigit c
  | .opConcatenation, c => c == '.'
  | .openSquare, c => c == '=' || c == '['
  | .variable _, c | .opLogicalNot, c | .opLogicalAnd, c | .opLogicalOr, c | .kwBreak, c | .kwDo, c
  | .kwElse, c | .kwElseIf, c | .kwEnd, c | .kwFalse, c | .kwFor, c | .kwFunction, c | .kwGoto, c
  | .kwIf, c | .kwIn, c | .kwLocal, c | .kwNil, c | .kwRepeat, c | .kwReturn, c | .kwThen, c
  | .kwTrue, c | .kwUntil, c | .kwWhile, c => isIdent c
  | _, _ => false

/-- The shape of the texts inside tokens. -/
def TokOk : Token → Prop
  | .variable s => IsWord s ∧ keywords.lookup s = none
  | .normalString s => strState '"' false s = some false
  | .charString s => strState '\'' false s = some false
  | .multiLineString n s => LongBody n false s
  | .sheBang s => ∃ t, s = '#' :: '!' :: t ∧ '\n' ∉ t
  | .eof => False
  | .numeral _ => False
  | _ => True

/-- The token is read from its spelling when `n` is the next character (`none`: end of text). -/
def Reads (t : Token) (n : Option Char) : Prop :=
  (∃ s, t = .numeral s ∧ NumReads s n) ∨ (TokOk t ∧ ∀ c, n = some c → fuse t c = false)

/-! ### Numerals -/

/-- `get_float_end` without positions. -/
def floatTail (s : Str) : Option (Str × Str) :=
  let a := s.takeWhile isNumChar
  match s.dropWhile isNumChar with
  | [] => some (a, [])
  | ch :: b =>
    if ch = 'e' ∨ ch = 'E' then
      match b with
      | [] => none
      | ch2 :: b' =>
        if ch2 = '-' then
          if b' = [] then none else some (a ++ ch :: '-' :: b'.takeWhile isDigit, b'.dropWhile isDigit)
        else some (a ++ ch :: b.takeWhile isDigit, b.dropWhile isDigit)
    else some (a, ch :: b)

theorem getIntegerEnd_spec (i : Nat) (s : Str) :
    getIntegerEnd ⟨i, s⟩ i =
      ⟨i + (s.takeWhile isDigit).length, s ≠ [], s.takeWhile isDigit,
        ⟨i + (s.takeWhile isDigit).length, s.dropWhile isDigit⟩⟩ := by
  have e : (fun c : Char => !(!isDigit c)) = isDigit := by funext c; simp
  simp only [getIntegerEnd, seekEnd_spec, e]
  cases s with
  | nil => simp
  | cons c s =>
    simp only [ne_eq, reduceCtorEq, if_false]
    by_cases hd : isDigit c = true
    · have : ¬ (i ≥ i + ((c :: s).takeWhile isDigit).length) := by simp [hd]
      simp [this]
    · simp [hd]

theorem getFloatEnd_spec (i start : Nat) (s : Str) :
    match floatTail s with
    | some (t, r) => s = t ++ r ∧ getFloatEnd ⟨i, s⟩ start =
        ⟨if s = [] then start else i + t.length, true, t, ⟨i + t.length, r⟩⟩
    | none => (getFloatEnd ⟨i, s⟩ start).succ = false := by
  have e : (fun c : Char => !(!isDigit c && c != '.')) = isNumChar := by
    funext c; simp [isNumChar, bne]
  have hsplit := List.takeWhile_append_dropWhile (p := isNumChar) (l := s)
  simp only [floatTail, getFloatEnd, seekEnd_spec, e]
  obtain ⟨a, ha⟩ : ∃ a, a = s.takeWhile isNumChar := ⟨_, rfl⟩
  rw [← ha] at hsplit
  simp only [← ha]
  cases hb : s.dropWhile isNumChar with
  | nil =>
    rw [hb] at hsplit
    simp at hsplit
    simp only [List.append_nil]
    exact ⟨hsplit.symm, trivial⟩
  | cons ch b =>
    rw [hb] at hsplit
    have hs : s ≠ [] := by rintro rfl; simp at hb
    simp only [advance_cons, hs, if_false]
    by_cases hch : ch = 'e' ∨ ch = 'E'
    · simp only [if_pos hch]
      cases b with
      | nil => simp
      | cons ch2 b' =>
        simp only
        by_cases h2 : ch2 = '-'
        · subst h2
          simp only [if_true, advance_cons, getIntegerEnd_spec]
          by_cases hb' : b' = []
          · subst hb'; simp
          · have := List.takeWhile_append_dropWhile (p := isDigit) (l := b')
            simp only [hb', if_false]
            refine ⟨?_, ?_⟩
            · rw [← hsplit]; simp [this]
            · simp [Nat.add_assoc, hb', Nat.add_comm 2]
        · simp only [if_neg h2, getIntegerEnd_spec]
          have := List.takeWhile_append_dropWhile (p := isDigit) (l := ch2 :: b')
          refine ⟨?_, ?_⟩
          · rw [← hsplit]; simp [this]
          · simp [Nat.add_assoc]
            omega
    · simp only [if_neg hch]
      exact ⟨hsplit.symm, trivial⟩

theorem mem_digits {s : Str} : ∀ c ∈ s.takeWhile isDigit, isDigit c = true := fun _ h => mem_takeWhile h

theorem dropWhile_next {p : Char → Bool} {s : Str} : ∀ c, (s.dropWhile p).head? = some c → p c = false :=
  fun _ h => dropWhile_head h

theorem dropWhile_ne_nil_head {p : Char → Bool} {s : Str} (h : s.takeWhile p = []) : s.dropWhile p = s := by
  have := List.takeWhile_append_dropWhile (p := p) (l := s)
  rw [h] at this
  simpa using this

/-- What `floatTail` finds behind a mantissa prefix `m0` is a numeral. -/
theorem floatTail_reads (m0 s t r : Str) (hm : ∀ a, (∀ c ∈ a, isNumChar c = true) → Mant (m0 ++ a))
    (h0 : t = [] → m0 = ['0'] → r.head? ≠ some 'x') (hlen : ∀ a, m0 ++ a = ['0'] → m0 = ['0'] ∧ a = [])
    (h : floatTail s = some (t, r)) : NumReads (m0 ++ t) r.head? := by
  unfold floatTail at h
  have ha : ∀ c ∈ s.takeWhile isNumChar, isNumChar c = true := fun c hc => mem_takeWhile hc
  have hM := hm _ ha
  have hnext := dropWhile_next (p := isNumChar) (s := s)
  revert ha hM h
  generalize s.takeWhile isNumChar = a
  intro h ha hM
  revert h
  cases hb : s.dropWhile isNumChar with
  | nil =>
    rintro ⟨⟩
    exact .plain _ _ hM (by simp) (by simp)
  | cons ch b =>
    rw [hb] at hnext
    simp only
    by_cases hch : ch = 'e' ∨ ch = 'E'
    · simp only [if_pos hch]
      cases b with
      | nil => simp
      | cons ch2 b' =>
        simp only
        by_cases h2 : ch2 = '-'
        · subst h2
          by_cases hb' : b' = []
          · subst hb'; simp
          · simp only [if_true, hb', if_false]
            rintro ⟨⟩
            rw [← List.append_assoc]
            refine .expNeg _ _ _ _ hM hch mem_digits (dropWhile_next) ?_
            intro hn
            rw [dropWhile_ne_nil_head hn]
            simpa using hb'
        · simp only [if_neg h2]
          intro h
          simp only [Option.some.injEq, Prod.mk.injEq] at h
          obtain ⟨rfl, rfl⟩ := h
          rw [← List.append_assoc]
          refine .exp _ _ _ _ hM hch mem_digits (dropWhile_next) ?_
          intro hn
          rw [dropWhile_ne_nil_head hn]
          simp [h2]
    · simp only [if_neg hch]
      intro h
      simp only [Option.some.injEq, Prod.mk.injEq] at h
      obtain ⟨rfl, rfl⟩ := h
      refine .plain _ _ hM ?_ ?_
      · intro c hc
        simp at hc
        subst hc
        refine ⟨hnext ch rfl, ?_, ?_⟩
        · rintro rfl; exact hch (Or.inl rfl)
        · rintro rfl; exact hch (Or.inr rfl)
      · intro hma
        obtain ⟨h1, h2⟩ := hlen _ hma
        exact h0 h2 h1

theorem floatTail_plain (a r : Str) (ha : ∀ c ∈ a, isNumChar c = true)
    (hr : ∀ c, r.head? = some c → isNumChar c = false ∧ c ≠ 'e' ∧ c ≠ 'E') :
    floatTail (a ++ r) = some (a, r) := by
  have := takeWhile_append_stop (p := isNumChar) ha (fun c hc => (hr c hc).1)
  unfold floatTail
  rw [this.1, this.2]
  cases r with
  | nil => rfl
  | cons c r =>
    have := hr c rfl
    simp [this]

theorem not_numChar_e {e : Char} (he : e = 'e' ∨ e = 'E') : isNumChar e = false := by
  rcases he with rfl | rfl <;> decide

theorem floatTail_exp (a : Str) (e : Char) (k r : Str) (ha : ∀ c ∈ a, isNumChar c = true) (he : e = 'e' ∨ e = 'E')
    (hk : ∀ c ∈ k, isDigit c = true) (hr : ∀ c, r.head? = some c → isDigit c = false)
    (h0 : k = [] → r.head? ≠ none ∧ r.head? ≠ some '-') :
    floatTail (a ++ e :: (k ++ r)) = some (a ++ e :: k, r) := by
  have h1 := takeWhile_append_stop (p := isNumChar) (b := e :: (k ++ r)) ha
    (by rintro c hc; simp at hc; subst hc; exact not_numChar_e he)
  have h2 := takeWhile_append_stop (p := isDigit) hk hr
  unfold floatTail
  rw [h1.1, h1.2]
  simp only [if_pos he]
  cases hkr : k ++ r with
  | nil =>
    simp at hkr
    obtain ⟨rfl, rfl⟩ := hkr
    simp at h0
  | cons x y =>
    have hx : x ≠ '-' := by
      rintro rfl
      cases k with
      | nil =>
        simp at hkr
        subst hkr
        simp at h0
      | cons d k =>
        simp at hkr
        have := hk d (by simp)
        rw [hkr.1] at this
        simp [isDigit] at this
    simp only [if_neg hx]
    rw [hkr] at h2
    rw [h2.1, h2.2]

theorem floatTail_expNeg (a : Str) (e : Char) (k r : Str) (ha : ∀ c ∈ a, isNumChar c = true) (he : e = 'e' ∨ e = 'E')
    (hk : ∀ c ∈ k, isDigit c = true) (hr : ∀ c, r.head? = some c → isDigit c = false)
    (h0 : k = [] → r.head? ≠ none) :
    floatTail (a ++ e :: '-' :: (k ++ r)) = some (a ++ e :: '-' :: k, r) := by
  have h1 := takeWhile_append_stop (p := isNumChar) (b := e :: '-' :: (k ++ r)) ha
    (by rintro c hc; simp at hc; subst hc; exact not_numChar_e he)
  have h2 := takeWhile_append_stop (p := isDigit) hk hr
  unfold floatTail
  rw [h1.1, h1.2]
  have hne : k ++ r ≠ [] := by
    intro h
    simp at h
    obtain ⟨rfl, rfl⟩ := h
    simp at h0
  simp only [if_pos he, if_true, hne, if_false, h2.1, h2.2]

end Luafmt
