import Verif.Proofs.Reads
import Verif.Spec.Elements

/-
Which tokens may stand next to each other without a blank.
-/
namespace Luafmt
open Spec

/-- What the first character of a token can be. -/
inductive Head where
  | word
  | num
  | ch (c : Char)
  deriving DecidableEq, Repr

def headOf : Token → Head
  | .variable _ => .word
  | .numeral _ => .num
  | .sheBang _ => .ch '#'
  | t =>
    match (spell t).head? with
    | some c => if isAlpha c then .word else .ch c
    | none => .ch ' '

/-- A character with which a token of this kind starts. -/
def Head.Is : Head → Char → Prop
  | .word, c => isAlpha c = true ∨ c = '_'
  | .num, c => isNumChar c = true
  | .ch d, c => c = d

/-- The character `c` might be read as a part of the token before it. -/
def joinsCh : Token → Char → Bool
  | .numeral _, c => isHex c || c == '.' || c == '-' || c == 'x'
  | t, c => fuse t c

/-- A token of kind `h` might be joined to the token before it. -/
def joins (t : Token) : Head → Bool
  | .word => joinsCh t 'a'
  | .num => joinsCh t '0' || joinsCh t '.'
  | .ch c => joinsCh t c

/-- The second token may follow the first one directly. -/
def adj (t t' : Token) : Bool := !joins t (headOf t')

theorem isHex_of_digit {c : Char} (h : isDigit c = true) : isHex c = true := by
  unfold isHex; simp [h]

/-- Characters that end every token. -/
def SafeCh (c : Char) : Prop := IsBlank c ∨ c = ',' ∨ c = ';' ∨ c = '}' ∨ c = '"' ∨ c = '\''

theorem joinsCh_safe (t : Token) {c : Char} (h : SafeCh c) : joinsCh t c = false := by
  rcases h with (h | h | h | h) | h | h | h | h | h <;> subst h <;> cases t <;> first | rfl | decide

theorem NumReads.of_joins {s : Str} {m : Option Char} (h : NumReads s m) {c : Char}
    (hc : joinsCh (.numeral s) c = false) : NumReads s (some c) := by
  simp only [joinsCh, Bool.or_eq_false_iff, beq_eq_false_iff_ne, ne_eq] at hc
  obtain ⟨⟨⟨h1, h2⟩, h3⟩, h4⟩ := hc
  have hd : isDigit c = false := by
    cases hd : isDigit c with
    | false => rfl
    | true => rw [isHex_of_digit hd] at h1; cases h1
  have he : c ≠ 'e' ∧ c ≠ 'E' := by
    constructor <;> rintro rfl <;> exact absurd h1 (by decide)
  cases h with
  | hex k n a b d => exact .hex k _ a (fun x e => by cases e; exact h1) (fun _ => by simp)
  | plain m n a b d =>
    refine .plain _ _ a (fun x e => ?_) (fun _ e => ?_)
    · cases e
      exact ⟨by simp [isNumChar, hd, h2], he⟩
    · cases e; exact h4 rfl
  | exp m e k n a b d f g =>
    refine .exp m e k _ a b d (fun x e => by cases e; exact hd) (fun _ => ⟨by simp, ?_⟩)
    rintro e; cases e; exact h3 rfl
  | expNeg m e k n a b d f g =>
    exact .expNeg m e k _ a b d (fun x e => by cases e; exact hd) (fun _ => by simp)

/-- A token is still read as before if the next character does not join it. -/
theorem reads_joinsCh {t : Token} {m : Option Char} (h : Reads t m) {c : Char} (hc : joinsCh t c = false) :
    Reads t (some c) := by
  rcases h with ⟨s, rfl, h⟩ | ⟨h1, h2⟩
  · exact .inl ⟨s, rfl, h.of_joins hc⟩
  · refine .inr ⟨h1, fun d hd => ?_⟩
    cases hd
    cases t <;> first | exact hc | exact h1.elim

theorem reads_safe {t : Token} {m : Option Char} (h : Reads t m) {c : Char} (hc : SafeCh c) : Reads t (some c) :=
  reads_joinsCh h (joinsCh_safe t hc)

theorem isAlpha_ident {c : Char} (h : isAlpha c = true ∨ c = '_') : isIdent c = true := by
  unfold isIdent
  rcases h with h | h <;> simp [h]

theorem joinsCh_word {t : Token} {c : Char} (hc : isAlpha c = true ∨ c = '_') (h : joinsCh t 'a' = false) :
    joinsCh t c = false := by
  have sym : ∀ d : Char, isAlpha d = false → d ≠ '_' → c ≠ d := by
    rintro d h1 h2 rfl
    rcases hc with hc | hc
    · rw [h1] at hc; cases hc
    · exact h2 hc
  have dig : isDigit c = false := by
    cases hd : isDigit c with
    | false => rfl
    | true =>
      exfalso
      unfold isDigit at hd
      rcases hc with hc | hc
      · unfold isAlpha at hc
        simp only [Bool.or_eq_true, Bool.and_eq_true, decide_eq_true_eq] at hc hd
        omega
      · subst hc; exact absurd hd (by decide)
  cases t <;> first
    | rfl
    | exact absurd (show true = false from h) (by decide)
    | (simp only [joinsCh, fuse, Bool.or_eq_false_iff, beq_eq_false_iff_ne] at h ⊢
       first
         | exact sym _ (by decide) (by decide)
         | exact ⟨sym _ (by decide) (by decide), sym _ (by decide) (by decide)⟩
         | exact ⟨sym _ (by decide) (by decide), dig⟩)

theorem joinsCh_num {t : Token} {c : Char} (hc : isNumChar c = true) (h : joinsCh t '0' = false)
    (h' : joinsCh t '.' = false) : joinsCh t c = false := by
  by_cases hdot : c = '.'
  · subst hdot; exact h'
  · have hd : isDigit c = true := by
      unfold isNumChar at hc
      simpa [hdot] using hc
    have hi : isIdent c = true := by unfold isIdent; simp [hd]
    have sym : ∀ d : Char, isDigit d = false → c ≠ d := by
      rintro d h1 rfl; rw [h1] at hd; cases hd
    cases t <;> first
      | rfl
      | exact absurd (show true = false from h) (by decide)
      | (simp only [joinsCh, fuse, Bool.or_eq_false_iff, beq_eq_false_iff_ne] at h ⊢
         first
           | exact sym _ (by decide)
           | exact ⟨sym _ (by decide), sym _ (by decide)⟩)

theorem headOf_spec {t : Token} {n : Option Char} (h : Reads t n) :
    ∃ c, (spell t).head? = some c ∧ (headOf t).Is c := by
  rcases h with ⟨s, rfl, h⟩ | ⟨h1, h2⟩
  · have hm : ∀ {m : Str} (r : Str), Mant m → ∃ c, (m ++ r).head? = some c ∧ isNumChar c = true := by
      rintro m r (⟨d, m, hd, _⟩ | ⟨d, m, hd, _⟩)
      · exact ⟨d, rfl, by unfold isNumChar; simp [hd]⟩
      · exact ⟨'.', rfl, rfl⟩
    cases h with
    | hex k n a b d => exact ⟨'0', rfl, rfl⟩
    | plain m n a b d => have := hm [] a; rw [List.append_nil] at this; exact this
    | exp m e k n a b d f g => exact hm _ a
    | expNeg m e k n a b d f g => exact hm _ a
  · cases t with
    | «variable» s =>
      obtain ⟨⟨c, r, rfl, hc, _⟩, _⟩ := h1
      exact ⟨c, rfl, hc⟩
    | numeral s => exact h1.elim
    | eof => exact h1.elim
    | sheBang s =>
      obtain ⟨t, rfl, _⟩ := h1
      exact ⟨'#', rfl, rfl⟩
    | normalString s => exact ⟨'"', rfl, rfl⟩
    | charString s => exact ⟨'\'', rfl, rfl⟩
    | multiLineString n s => exact ⟨'[', rfl, rfl⟩
    | _ => first | exact ⟨_, rfl, rfl⟩ | exact ⟨_, rfl, .inl rfl⟩

/-- A token is read as before if a token follows that may follow it directly. -/
theorem reads_adj {t t' : Token} {m n : Option Char} (h : Reads t m) (h' : Reads t' n) (ha : adj t t' = true) (r : Str) :
    Reads t (spell t' ++ r).head? := by
  obtain ⟨c, h1, h2⟩ := headOf_spec h'
  have : (spell t' ++ r).head? = some c := by
    cases hs : spell t' with
    | nil => rw [hs] at h1; cases h1
    | cons d l => rw [hs] at h1; simpa using h1
  rw [this]
  refine reads_joinsCh h ?_
  unfold adj at ha
  cases hh : headOf t' with
  | word =>
    rw [hh] at h2 ha
    simp only [joins, Bool.not_eq_true'] at ha
    exact joinsCh_word h2 ha
  | num =>
    rw [hh] at h2 ha
    simp only [joins, Bool.not_eq_true', Bool.or_eq_false_iff] at ha
    exact joinsCh_num h2 ha.1 ha.2
  | ch d =>
    rw [hh] at h2 ha
    simp only [joins, Bool.not_eq_true'] at ha
    simp only [Head.Is] at h2
    subst h2
    exact ha

/-! ### The end of a token -/

theorem Mant.last {m : Str} (h : Mant m) : ∃ c, m.getLast? = some c ∧ isNumChar c = true := by
  have key : ∀ (d : Char) (m : Str), isNumChar d = true → (∀ c ∈ m, isNumChar c = true) →
      ∃ c, (d :: m).getLast? = some c ∧ isNumChar c = true := by
    intro d m hd hm
    rw [List.getLast?_cons]
    cases hl : m.getLast? with
    | none => exact ⟨d, rfl, hd⟩
    | some y => exact ⟨y, rfl, hm y (List.mem_of_getLast? hl)⟩
  cases h with
  | digit d m hd hm => exact key d m (by unfold isNumChar; simp [hd]) hm
  | dot d m hd hm =>
    exact key '.' (d :: m) rfl (by
      intro c hc
      rcases List.mem_cons.mp hc with rfl | hc
      · unfold isNumChar; simp [hd]
      · exact hm c hc)

/-- The last character of a token: a blank only in a shebang line. -/
theorem reads_last {t : Token} {n : Option Char} (h : Reads t n) :
    ∃ c, (spell t).getLast? = some c ∧ c ≠ ' ' ∧ c ≠ '\t' ∧ (c = '\n' → ∃ s, t = .sheBang s) := by
  have fin : ∀ {s : Str} {c : Char} (p : Char → Bool), s.getLast? = some c → p c = true → p ' ' = false →
      p '\t' = false → p '\n' = false →
      ∃ c, s.getLast? = some c ∧ c ≠ ' ' ∧ c ≠ '\t' ∧ (c = '\n' → ∃ s, t = .sheBang s) := by
    intro s c p h1 h2 h3 h4 h5
    refine ⟨c, h1, ?_, ?_, ?_⟩
    · rintro rfl; rw [h2] at h3; cases h3
    · rintro rfl; rw [h2] at h4; cases h4
    · rintro rfl; rw [h2] at h5; cases h5
  rcases h with ⟨s, rfl, h⟩ | ⟨h1, h2⟩
  · have tail : ∀ (m : Str) (e : Char) (k : Str), (e = 'e' ∨ e = 'E' ∨ e = '-') → (∀ c ∈ k, isDigit c = true) →
        ∃ c, (m ++ e :: k).getLast? = some c ∧ (isDigit c || c == 'e' || c == 'E' || c == '-') = true := by
      intro m e k he hk
      rw [List.getLast?_append, List.getLast?_cons]
      cases hl : k.getLast? with
      | none => refine ⟨e, by simp, ?_⟩; rcases he with rfl | rfl | rfl <;> decide
      | some y => exact ⟨y, by simp, by simp [hk y (List.mem_of_getLast? hl)]⟩
    cases h with
    | hex k n a b d =>
      have : ∃ c, ('0' :: 'x' :: k).getLast? = some c ∧ (isHex c || c == 'x') = true := by
        rw [List.getLast?_cons, List.getLast?_cons]
        cases hl : k.getLast? with
        | none => exact ⟨'x', by simp, by decide⟩
        | some y => exact ⟨y, by simp, by simp [a y (List.mem_of_getLast? hl)]⟩
      obtain ⟨c, h1, h2⟩ := this
      exact fin (fun c => isHex c || c == 'x') h1 h2 (by decide) (by decide) (by decide)
    | plain m n a b d =>
      obtain ⟨c, h1, h2⟩ := a.last
      exact fin (isNumChar) h1 h2 (by decide) (by decide) (by decide)
    | exp m e k n a b d f g =>
      obtain ⟨c, h1, h2⟩ := tail m e k (by rcases b with b | b <;> simp [b]) d
      exact fin (fun c => isDigit c || c == 'e' || c == 'E' || c == '-') h1 h2 (by decide) (by decide) (by decide)
    | expNeg m e k n a b d f g =>
      obtain ⟨c, h1, h2⟩ := tail (m ++ [e]) '-' k (by simp) d
      rw [List.append_assoc] at h1
      exact fin (fun c => isDigit c || c == 'e' || c == 'E' || c == '-') h1 h2 (by decide) (by decide) (by decide)
  · have quote : ∀ (q : Char) (s : Str), (q :: (s ++ [q])).getLast? = some q := by
      intro q s
      rw [List.getLast?_cons, List.getLast?_append]
      rfl
    cases t with
    | «variable» s =>
      obtain ⟨⟨c, r, rfl, hc, hr⟩, _⟩ := h1
      have : ∃ d, (c :: r).getLast? = some d ∧ isIdent d = true := by
        rw [List.getLast?_cons]
        cases hl : r.getLast? with
        | none => exact ⟨c, by simp, isAlpha_ident hc⟩
        | some y => exact ⟨y, by simp, hr y (List.mem_of_getLast? hl)⟩
      obtain ⟨d, h1, h2⟩ := this
      exact fin (isIdent) h1 h2 (by decide) (by decide) (by decide)
    | numeral s => exact h1.elim
    | eof => exact h1.elim
    | sheBang s =>
      refine ⟨'\n', ?_, by decide, by decide, fun _ => ⟨s, rfl⟩⟩
      simp only [spell, List.getLast?_append]
      rfl
    | normalString s => exact ⟨'"', quote _ _, by decide, by decide, fun h => absurd h (by decide)⟩
    | charString s => exact ⟨'\'', quote _ _, by decide, by decide, fun h => absurd h (by decide)⟩
    | multiLineString n s =>
      refine ⟨']', ?_, by decide, by decide, fun h => absurd h (by decide)⟩
      simp [spell, closer, List.getLast?_append, List.getLast?_cons]
    | _ => exact ⟨_, rfl, by decide, by decide, fun h => absurd h (by decide)⟩

end Luafmt
