import Verif.Spec.Lex

/-
The scanning functions of lexer_util.rs, characterised.
-/
namespace Luafmt
open Spec

@[simp] theorem advance_cons (i : Nat) (c : Char) (s : Str) : (Chars.mk i (c :: s)).advance = ⟨i + 1, s⟩ := by
  simp [Chars.advance]
@[simp] theorem advance_nil (i : Nat) : (Chars.mk i []).advance = ⟨i, []⟩ := rfl

/-- What a predicate scan consumes. -/
theorem seekGo_spec (f : Char → Bool) (esc : Bool) (i : Nat) (s : Str) :
    seekGo (fun ch _ => f ch) esc i s =
      (s.takeWhile (fun c => !f c), ⟨i + (s.takeWhile (fun c => !f c)).length, s.dropWhile (fun c => !f c)⟩) := by
  induction s generalizing esc i with
  | nil => rfl
  | cons c s ih =>
    simp only [seekGo]
    cases h : f c
    · simp [ih, h, Nat.add_assoc, Nat.add_comm 1]
    · simp [h]

theorem takeWhile_append_stop {p : Char → Bool} {a b : Str} (ha : ∀ c ∈ a, p c = true)
    (hb : ∀ c, b.head? = some c → p c = false) : (a ++ b).takeWhile p = a ∧ (a ++ b).dropWhile p = b := by
  induction a with
  | nil =>
    cases b with
    | nil => simp
    | cons c b => simp [hb c rfl]
  | cons c a ih =>
    have := ih (fun c hc => ha c (List.mem_cons_of_mem _ hc))
    simp [ha c (List.mem_cons_self ..), this]

/-- The state of a quoted string after a body: `none` if the quote `q` appears unescaped. -/
def strState (q : Char) : Bool → Str → Option Bool
  | esc, [] => some esc
  | esc, c :: s => if !esc && c == q then none else strState q (!esc && c == '\\') s

theorem seekGo_str (q : Char) (esc : Bool) (i : Nat) (s rest : Str) (h : strState q esc s = some false) :
    seekGo (fun ch escaped => !escaped && ch == q) esc i (s ++ q :: rest) =
      (s, ⟨i + s.length, q :: rest⟩) := by
  induction s generalizing esc i with
  | nil =>
    simp [strState] at h
    subst h
    simp [seekGo]
  | cons c s ih =>
    simp only [strState] at h
    split at h
    · simp at h
    · rename_i hc
      simp only [List.cons_append, seekGo, hc]
      simp [ih _ _ h, Nat.add_assoc, Nat.add_comm 1]

theorem seekGo_str_fwd (q : Char) (esc : Bool) (i : Nat) (s : Str) :
    let p := seekGo (fun ch escaped => !escaped && ch == q) esc i s
    s = p.1 ++ p.2.rest ∧ p.2.idx = i + p.1.length ∧
    (p.2.rest = [] ∨ (∃ r, p.2.rest = q :: r ∧ strState q esc p.1 = some false)) := by
  induction s generalizing esc i with
  | nil => simp [seekGo]
  | cons c s ih =>
    simp only [seekGo]
    split
    · rename_i h
      simp at h
      obtain ⟨rfl, rfl⟩ := h
      simp [strState]
    · rename_i h
      obtain ⟨h1, h2, h3⟩ := ih (!esc && c == '\\') (i + 1)
      refine ⟨?_, ?_, ?_⟩
      · simp only [List.cons_append]; rw [← h1]
      · simp only [h2, List.length_cons]; omega
      · rcases h3 with h3 | ⟨r, h3, h4⟩
        · exact Or.inl h3
        · right
          refine ⟨r, h3, ?_⟩
          simp only [strState]
          rw [if_neg (by simpa using h)]
          exact h4

theorem seekEnd_chars (f : Char → Bool → Bool) (start : Nat) (c : Chars) :
    (seekEnd f start c).text = (seekGo f false c.idx c.rest).1 ∧
    (seekEnd f start c).chars = (seekGo f false c.idx c.rest).2 := by
  obtain ⟨i, s⟩ := c
  cases s with
  | nil => simp [seekEnd, seekGo]
  | cons c s =>
    simp only [seekEnd]
    split <;> simp

/-- A predicate scan, in full. `start` is only reported back when nothing is left to read. -/
theorem seekEnd_spec (f : Char → Bool) (start i : Nat) (s : Str) :
    seekEnd (fun ch _ => f ch) start ⟨i, s⟩ =
      let a := s.takeWhile (fun c => !f c)
      let b := s.dropWhile (fun c => !f c)
      ⟨if s = [] then start else i + a.length, b ≠ [], a, ⟨i + a.length, b⟩⟩ := by
  cases s with
  | nil => simp [seekEnd]
  | cons c s =>
    simp only [seekEnd, seekGo_spec]
    split
    · rename_i h; simp [h]
    · rename_i h; simp [h]

theorem getMultilineStringLevel_spec (i start : Nat) (s : Str) (hs : start ≤ i) (hi : s = [] ∨ i = start) :
    getMultilineStringLevel ⟨i, s⟩ start =
      ((s.takeWhile (· == '=')).length, ⟨i + (s.takeWhile (· == '=')).length, s.dropWhile (· == '=')⟩) := by
  have e : (fun c : Char => !(c != '=')) = (fun c => c == '=') := by funext c; simp [bne]
  simp only [getMultilineStringLevel]
  rw [seekEnd_spec]
  simp only [e]
  cases s with
  | nil => simp
  | cons c s =>
    rcases hi with hi | hi
    · simp at hi
    · subst hi
      simp

theorem takeWhile_eqs (s : Str) : s.takeWhile (· == '=') = eqs (s.takeWhile (· == '=')).length := by
  induction s with
  | nil => rfl
  | cons c s ih =>
    by_cases h : c = '='
    · subst h
      simp only [List.takeWhile_cons, beq_self_eq_true, if_true, List.length_cons, eqs, List.replicate_succ]
      rw [ih]; simp [eqs]
    · simp [h, eqs]

theorem eqs_split (s : Str) :
    s = eqs (s.takeWhile (· == '=')).length ++ s.dropWhile (· == '=') := by
  rw [← takeWhile_eqs]
  exact (List.takeWhile_append_dropWhile).symm

theorem takeWhile_eqs_append (n : Nat) (s : Str) (h : s.head? ≠ some '=') :
    (eqs n ++ s).takeWhile (· == '=') = eqs n ∧ (eqs n ++ s).dropWhile (· == '=') = s := by
  apply takeWhile_append_stop
  · intro c hc
    simp [eqs] at hc
    simp [hc]
  · intro c hc
    by_cases h' : c = '='
    · subst h'; exact absurd hc h
    · simp [h']

theorem closer_eq (n : Nat) : closer n = ']' :: (eqs n ++ [']']) := rfl

theorem dropWhile_head {p : Char → Bool} {s : Str} {c : Char} (h : (s.dropWhile p).head? = some c) : p c = false := by
  induction s with
  | nil => simp at h
  | cons d s ih =>
    by_cases hd : p d
    · rw [List.dropWhile_cons, if_pos hd] at h; exact ih h
    · rw [List.dropWhile_cons, if_neg hd] at h
      simp at h; subst h; simpa using hd

/-- A closing bracket of level `n` at the front, in terms of the number of equals signs. -/
theorem closer_prefix (n : Nat) (s : Str) :
    closer n <+: ']' :: s ↔
      (s.takeWhile (· == '=')).length = n ∧ (s.dropWhile (· == '=')).head? = some ']' := by
  constructor
  · rintro ⟨t, ht⟩
    rw [closer_eq] at ht
    simp at ht
    subst ht
    have := takeWhile_eqs_append n (']' :: t) (by simp)
    simp [eqs]
  · rintro ⟨h1, h2⟩
    have := eqs_split s
    rw [h1] at this
    cases hd : s.dropWhile (· == '=') with
    | nil => simp [hd] at h2
    | cons c r =>
      rw [hd] at h2 this
      simp at h2
      subst h2
      refine ⟨r, ?_⟩
      rw [closer_eq, this]
      simp

theorem LongBody_eqs (n k : Nat) (p : Bool) (s : Str) (h : LongBody n p (eqs k ++ s)) (hk : 0 < k) :
    LongBody n false s := by
  induction k generalizing p with
  | zero => omega
  | succ k ih =>
    simp only [eqs, List.replicate_succ, List.cons_append, LongBody] at h
    cases k with
    | zero => simpa [eqs] using h.2
    | succ k => exact ih _ (by simpa [eqs] using h.2) (by omega)

theorem LongBody_eqs' (n k : Nat) (s : Str) (h : LongBody n false (eqs k ++ s)) : LongBody n false s := by
  cases k with
  | zero => simpa [eqs] using h
  | succ k => exact LongBody_eqs n _ _ s h (by omega)

theorem LongBody_eqs_mk (n k : Nat) (s : Str) (h : LongBody n false s) : LongBody n false (eqs k ++ s) := by
  induction k with
  | zero => simpa [eqs] using h
  | succ k ih =>
    simp only [eqs, List.replicate_succ, List.cons_append, LongBody]
    refine ⟨?_, ?_⟩
    · rintro ⟨_, hp⟩
      rw [closer_eq] at hp
      simp at hp
    · simpa [eqs] using ih

theorem prefix_append_iff_closer (n : Nat) (s rest : Str) :
    closer n <+: ']' :: (s ++ (closer n ++ rest)) ↔ closer n <+: ']' :: (s ++ closer n) := by
  constructor
  · intro h
    rw [show ']' :: (s ++ (closer n ++ rest)) = (']' :: (s ++ closer n)) ++ rest by simp] at h
    have h1 : (']' :: (s ++ closer n)) <+: (']' :: (s ++ closer n)) ++ rest := List.prefix_append ..
    exact List.prefix_of_prefix_length_le h h1 (by simp; omega)
  · rintro ⟨t, ht⟩
    refine ⟨t ++ rest, ?_⟩
    rw [← List.append_assoc, ht]; simp

/-- The scan over a long bracket finds the body. -/
theorem multiGo_ok (n : Nat) (fuel : Nat) (esc : Bool) (e i : Nat) (b rest : Str)
    (hf : b.length + n + 2 ≤ fuel) (hb : LongBody n esc b) :
    multiGo n fuel esc e ⟨i, b ++ (closer n ++ rest)⟩ =
      ⟨i + b.length, i + b.length + n + 2, true, b, ⟨i + b.length + n + 2, rest⟩⟩ := by
  induction hl : b.length using Nat.strongRecOn generalizing fuel esc e i b with
  | _ L ih =>
  obtain ⟨fuel, rfl⟩ : ∃ f, fuel = f + 1 := ⟨fuel - 1, by omega⟩
  cases b with
  | nil =>
    simp [LongBody] at hb
    subst hb
    simp only [List.length_nil] at hl
    subst hl
    have h1 := takeWhile_eqs_append n (']' :: rest) (by simp)
    rw [closer_eq]
    simp only [multiGo, List.nil_append, List.cons_append, List.append_assoc, advance_cons]
    rw [getMultilineStringLevel_spec _ _ _ (Nat.le_refl _) (Or.inr rfl)]
    simp [eqs]
    omega
  | cons c s =>
    simp only [LongBody] at hb
    obtain ⟨hb1, hb2⟩ := hb
    simp only [List.length_cons] at hl hf
    simp only [multiGo, List.cons_append, advance_cons]
    by_cases hc : (!esc && c == ']') = true
    · rw [if_pos hc]
      simp at hc
      obtain ⟨rfl, rfl⟩ := hc
      have hnp : ¬ closer n <+: ']' :: (s ++ (closer n ++ rest)) := by
        rw [prefix_append_iff_closer]
        intro hp
        exact hb1 ⟨rfl, hp⟩
      rw [closer_prefix] at hnp
      have hn0 : ¬ closer n <+: ']' :: (s ++ closer n) := fun hp => hb1 ⟨rfl, hp⟩
      have hlv := getMultilineStringLevel_spec (i + 1) (i + 1) (s ++ (closer n ++ rest)) (Nat.le_refl _)
        (Or.inr rfl)
      -- the equals signs lie inside `s`
      have key : ∃ k s1, s = eqs k ++ s1 ∧ (s ++ (closer n ++ rest)).takeWhile (· == '=') = eqs k ∧
          (s ++ (closer n ++ rest)).dropWhile (· == '=') = s1 ++ (closer n ++ rest) := by
        refine ⟨(s.takeWhile (· == '=')).length, s.dropWhile (· == '='), eqs_split s, ?_⟩
        have hsp := eqs_split s
        have := takeWhile_eqs_append (s.takeWhile (· == '=')).length
          (s.dropWhile (· == '=') ++ (closer n ++ rest)) ?_
        · rw [← List.append_assoc, ← hsp] at this
          exact this
        · cases hd : s.dropWhile (· == '=') with
          | nil => simp [closer_eq]
          | cons d r =>
            have := dropWhile_head (s := s) (p := (· == '=')) (c := d) (by rw [hd]; rfl)
            simp at this
            simp [this]
      obtain ⟨k, s1, rfl, hk1, hk2⟩ := key
      have hlk : (eqs k).length = k := by simp [eqs]
      rw [hk1, hk2] at hnp hlv
      simp only [hlk] at hnp hlv
      simp only [hlv]
      have hs1 : LongBody n false s1 := LongBody_eqs' n k s1 (by simpa using hb2)
      have hlen : s1.length < L := by
        simp [hlk] at hl; omega
      have hrec := ih s1.length hlen fuel false i (i + 1 + k) s1 (by simp [hlk] at hf; omega) hs1 rfl
      have hfin : ∀ x : Ends, x = multiGo n fuel false i ⟨i + 1 + k, s1 ++ (closer n ++ rest)⟩ →
          ({ x with text := (']' :: eqs k) ++ x.text } : Ends) =
          ⟨i + L, i + L + n + 2, true, ']' :: (eqs k ++ s1), ⟨i + L + n + 2, rest⟩⟩ := by
        intro x hx
        rw [hx, hrec]
        simp [hlk] at hl
        simp
        omega
      have hfin := hfin _ rfl
      by_cases hnk : n = k
      · rw [if_pos hnk]
        cases s1 with
        | nil =>
          exfalso
          apply hnp
          refine ⟨hnk.symm, ?_⟩
          simp [closer_eq]
        | cons d r =>
          have hd : d ≠ ']' := by
            rintro rfl
            apply hnp
            exact ⟨hnk.symm, rfl⟩
          simp only [List.cons_append]
          rw [if_neg hd]
          exact hfin
      · rw [if_neg hnk]
        exact hfin
    · rw [if_neg hc]
      have hrec := ih s.length (by omega) fuel (c == '\\') i (i + 1) s (by omega) hb2 rfl
      rw [hrec]
      simp only [Ends.mk.injEq, Chars.mk.injEq, true_and, and_true]
      omega

/-- A successful scan over a long bracket has found a body. -/
theorem multiGo_fwd (n : Nat) (fuel : Nat) (esc : Bool) (e i : Nat) (s : Str) (x : Ends)
    (hx : multiGo n fuel esc e ⟨i, s⟩ = x) (hs : x.succ = true) :
    ∃ rest, s = x.text ++ (closer n ++ rest) ∧ LongBody n esc x.text ∧
      x.tokenEnd = i + x.text.length + n + 2 ∧ x.chars = ⟨i + x.text.length + n + 2, rest⟩ := by
  induction fuel generalizing esc e i s x with
  | zero => subst hx; simp [multiGo] at hs
  | succ fuel ih =>
    cases s with
    | nil => subst hx; simp [multiGo] at hs
    | cons c s =>
      simp only [multiGo, advance_cons] at hx
      by_cases hc : (!esc && c == ']') = true
      · rw [if_pos hc] at hx
        simp at hc
        obtain ⟨rfl, rfl⟩ := hc
        simp only [getMultilineStringLevel_spec _ _ _ (Nat.le_refl (i + 1)) (Or.inr rfl)] at hx
        obtain ⟨k, hk⟩ : ∃ k, k = (s.takeWhile (· == '=')).length := ⟨_, rfl⟩
        obtain ⟨s1, hs1⟩ : ∃ s1, s1 = s.dropWhile (· == '=') := ⟨_, rfl⟩
        have hsp := eqs_split s
        rw [← hk, ← hs1] at hx hsp
        have hlk : (eqs k).length = k := by simp [eqs]
        have hcont : ∀ y : Ends, y = multiGo n fuel false i ⟨i + 1 + k, s1⟩ → y.succ = true →
            ¬ closer n <+: ']' :: s →
            ∃ rest, ']' :: s = ((']' :: eqs k) ++ y.text) ++ (closer n ++ rest) ∧
              LongBody n false ((']' :: eqs k) ++ y.text) ∧
              y.tokenEnd = i + ((']' :: eqs k) ++ y.text).length + n + 2 ∧
              y.chars = ⟨i + ((']' :: eqs k) ++ y.text).length + n + 2, rest⟩ := by
          intro y hy hsucc hnp
          obtain ⟨rest, h1, h2, h3, h4⟩ := ih false i (i + 1 + k) s1 y hy.symm hsucc
          refine ⟨rest, ?_, ?_, ?_, ?_⟩
          · rw [hsp, h1]; simp
          · simp only [List.cons_append, LongBody]
            refine ⟨?_, by simpa using LongBody_eqs_mk n k _ h2⟩
            rintro ⟨_, hp⟩
            apply hnp
            have := (prefix_append_iff_closer n (eqs k ++ y.text) rest).2 hp
            rw [hsp, h1]
            simpa using this
          · rw [h3]; simp [hlk]; omega
          · rw [h4]; simp [hlk]; omega
        by_cases hnk : n = k
        · rw [if_pos hnk] at hx
          cases s1 with
          | nil => subst hx; simp at hs
          | cons d r =>
            simp only at hx
            by_cases hd : d = ']'
            · rw [if_pos hd] at hx
              subst hx
              subst hd
              refine ⟨r, ?_, ?_, ?_, ?_⟩
              · rw [hsp, closer_eq, hnk]; simp
              · simp [LongBody]
              · simp; omega
              · simp; omega
            · rw [if_neg hd] at hx
              have hnp : ¬ closer n <+: ']' :: s := by
                rw [closer_prefix, ← hs1]
                simp [hd]
              rw [← hx] at hs
              obtain ⟨rest, h⟩ := hcont _ rfl hs hnp
              refine ⟨rest, ?_⟩
              rw [← hx]
              exact h
        · rw [if_neg hnk] at hx
          have hnp : ¬ closer n <+: ']' :: s := by
            rw [closer_prefix, ← hk]
            intro h
            exact hnk h.1.symm
          rw [← hx] at hs
          obtain ⟨rest, h⟩ := hcont _ rfl hs hnp
          refine ⟨rest, ?_⟩
          rw [← hx]
          exact h
      · rw [if_neg hc] at hx
        rw [← hx] at hs
        obtain ⟨rest, h1, h2, h3, h4⟩ := ih _ _ _ _ _ rfl hs
        refine ⟨rest, ?_, ?_, ?_, ?_⟩
        · rw [← hx]; simp only [List.cons_append]; rw [← h1]
        · rw [← hx]
          simp only [LongBody]
          refine ⟨?_, h2⟩
          rintro ⟨he, hp⟩
          rw [closer_eq] at hp
          have : c = ']' := by
            have := List.cons_prefix_cons.1 hp
            exact this.1.symm
          simp [he, this] at hc
        · rw [← hx]; simp only [h3, List.length_cons]; omega
        · rw [← hx]; simp only [h4, List.length_cons, Chars.mk.injEq, and_true]; omega

end Luafmt
