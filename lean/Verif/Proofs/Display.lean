import Verif.Model.Display
import Verif.Proofs.Config

/-
Lemmas for C55: values are written in different ways, and on one line.
-/
namespace Luafmt

theorem split_first {α : Type} {z : α} : ∀ {a b x y : List α}, z ∉ a → z ∉ b → a ++ z :: x = b ++ z :: y → a = b ∧ x = y
  | [], [], _, _, _, _, h => ⟨rfl, by simpa using h⟩
  | [], c :: b, _, _, _, hb, h => by
    simp only [List.nil_append, List.cons_append, List.cons.injEq] at h
    exact absurd (h.1 ▸ List.mem_cons_self) hb
  | c :: a, [], _, _, ha, _, h => by
    simp only [List.nil_append, List.cons_append, List.cons.injEq] at h
    exact absurd (h.1 ▸ List.mem_cons_self) ha
  | c :: a, d :: b, _, _, ha, hb, h => by
    simp only [List.cons_append, List.cons.injEq] at h
    obtain ⟨e1, e2⟩ := split_first (fun h => ha (List.mem_cons_of_mem _ h)) (fun h => hb (List.mem_cons_of_mem _ h)) h.2
    exact ⟨by rw [h.1, e1], e2⟩

def hexChars : Str := L!"0123456789abcdef"

theorem digitChar_mem : ∀ k < 16, Nat.digitChar k ∈ hexChars := by decide +kernel
theorem digitChar_inj : ∀ k < 16, ∀ l < 16, Nat.digitChar k = Nat.digitChar l → k = l := by decide +kernel

theorem toDigits_mem {b : Nat} (hb : 1 < b) (hb' : b ≤ 16) (n : Nat) : ∀ c ∈ Nat.toDigits b n, c ∈ hexChars := by
  induction n using Nat.strongRecOn with
  | _ n ih =>
    intro c hc
    rw [Nat.toDigits_eq_if hb] at hc
    split at hc
    · rw [List.mem_singleton.1 hc]
      exact digitChar_mem _ (by omega)
    · rcases List.mem_append.1 hc with hc | hc
      · exact ih _ (Nat.div_lt_self (by omega) hb) c hc
      · rw [List.mem_singleton.1 hc]
        exact digitChar_mem _ (Nat.lt_of_lt_of_le (Nat.mod_lt _ (by omega)) hb')

theorem toDigits_inj {b : Nat} (hb : 1 < b) (hb' : b ≤ 16) (n : Nat) : ∀ m, Nat.toDigits b n = Nat.toDigits b m → n = m := by
  induction n using Nat.strongRecOn with
  | _ n ih =>
    intro m h
    have hmod : ∀ k, k % b < 16 := fun k => Nat.lt_of_lt_of_le (Nat.mod_lt _ (by omega)) hb'
    rw [Nat.toDigits_eq_if hb (n := n), Nat.toDigits_eq_if hb (n := m)] at h
    split at h <;> split at h
    · exact digitChar_inj _ (by omega) _ (by omega) (by simpa using h)
    · have := congrArg List.length h
      have := List.length_pos_iff.2 (Nat.toDigits_ne_nil (n := m / b) (b := b))
      simp at *
    · have := congrArg List.length h
      have := List.length_pos_iff.2 (Nat.toDigits_ne_nil (n := n / b) (b := b))
      simp at *
    · obtain ⟨h1, h2⟩ := List.append_inj' h rfl
      have e1 := ih _ (Nat.div_lt_self (by omega) hb) _ h1
      have e2 := digitChar_inj _ (hmod n) _ (hmod m) (by simpa using h2)
      rw [← Nat.div_add_mod n b, ← Nat.div_add_mod m b, e1, e2]

theorem escape_mem {c e : Char} (h : escapeTable.lookup c = some e) : (c, e) ∈ escapeTable := lookup_mem h

theorem debugChar_prefix {p : Char → Bool} {c d : Char} {s t : Str} (h : debugChar p c ++ s = debugChar p d ++ t) :
    c = d ∧ s = t := by
  have hu : ∀ q ∈ escapeTable, q.2 ≠ 'u' := by decide +kernel
  have hq : ∀ q ∈ escapeTable, ∀ r ∈ escapeTable, q.2 = r.2 → q.1 = r.1 := by decide +kernel
  have hb : escapeTable.lookup '\\' ≠ none := by decide +kernel
  have hex : ∀ n, '}' ∉ Nat.toDigits 16 n := fun n h =>
    absurd (toDigits_mem (by decide) (by decide) n _ h) (by decide +kernel)
  unfold debugChar at h
  cases hc : escapeTable.lookup c with
  | some e =>
    cases hd : escapeTable.lookup d with
    | some e' =>
      simp only [hc, hd, List.cons_append, List.nil_append, List.cons.injEq, true_and] at h
      exact ⟨hq _ (escape_mem hc) _ (escape_mem hd) h.1, h.2⟩
    | none =>
      simp only [hc, hd] at h
      split at h
      · simp only [List.cons_append, List.nil_append, List.cons.injEq] at h
        exact absurd (h.1 ▸ hd) hb
      · simp only [String.toList, List.cons_append, List.nil_append, List.append_assoc, List.cons.injEq] at h
        exact absurd h.2.1 (hu _ (escape_mem hc))
  | none =>
    cases hd : escapeTable.lookup d with
    | some e' =>
      simp only [hc, hd] at h
      split at h
      · simp only [List.cons_append, List.nil_append, List.cons.injEq] at h
        exact absurd (h.1 ▸ hc) hb
      · simp only [List.cons_append, List.nil_append, List.append_assoc, List.cons.injEq] at h
        exact absurd h.2.1.symm (hu _ (escape_mem hd))
    | none =>
      simp only [hc, hd] at h
      split at h <;> split at h
      · simpa using h
      · simp only [List.cons_append, List.nil_append, List.append_assoc, List.cons.injEq] at h
        exact absurd (h.1 ▸ hc) hb
      · simp only [List.cons_append, List.nil_append, List.append_assoc, List.cons.injEq] at h
        exact absurd (h.1 ▸ hd) hb
      · simp only [List.cons_append, List.nil_append, List.append_assoc, List.cons.injEq, true_and] at h
        obtain ⟨h1, h2⟩ := split_first (hex _) (hex _) h
        exact ⟨Char.toNat_inj.1 (toDigits_inj (by decide) (by decide) _ _ h1), h2⟩

theorem debugChar_quote {p : Char → Bool} {c : Char} {s t : Str} (h : debugChar p c ++ s = '"' :: t) : False := by
  have hb : escapeTable.lookup '"' ≠ none := by decide +kernel
  unfold debugChar at h
  cases hc : escapeTable.lookup c with
  | some e => simp [hc] at h
  | none =>
    simp only [hc] at h
    split at h
    · simp only [List.cons_append, List.nil_append, List.cons.injEq] at h
      exact absurd (h.1 ▸ hc) hb
    · simp at h

theorem debugText_inj {p : Char → Bool} : ∀ s t : Str, s.flatMap (debugChar p) ++ ['"'] = t.flatMap (debugChar p) ++ ['"'] → s = t
  | [], [], _ => rfl
  | [], d :: t, h => by
    simp only [List.flatMap_nil, List.nil_append, List.flatMap_cons, List.append_assoc] at h
    exact (debugChar_quote h.symm).elim
  | c :: s, [], h => by
    simp only [List.flatMap_nil, List.nil_append, List.flatMap_cons, List.append_assoc] at h
    exact (debugChar_quote h).elim
  | c :: s, d :: t, h => by
    simp only [List.flatMap_cons, List.append_assoc] at h
    obtain ⟨e, h⟩ := debugChar_prefix h
    rw [e, debugText_inj s t h]

theorem debugChar_line (p : Char → Bool) (c : Char) : '\n' ∉ debugChar p c := by
  have hn : ∀ q ∈ escapeTable, q.2 ≠ '\n' := by decide +kernel
  have hb : escapeTable.lookup '\n' ≠ none := by decide +kernel
  unfold debugChar
  cases hc : escapeTable.lookup c with
  | some e =>
    have := hn _ (escape_mem hc)
    simp only [List.mem_cons, List.not_mem_nil, or_false, not_or]
    exact ⟨by decide, fun h => this h.symm⟩
  | none =>
    simp only
    split
    · intro h
      exact hb (List.mem_singleton.1 h ▸ hc)
    · simp only [List.mem_append, not_or]
      exact ⟨⟨by decide, fun h => absurd (toDigits_mem (by decide) (by decide) _ _ h) (by decide +kernel)⟩, by decide⟩

theorem decDigits_ne {z : Char} (hz : z ∉ hexChars) (n : Nat) : z ∉ Nat.toDigits 10 n := fun h =>
  hz (toDigits_mem (by decide) (by decide) n _ h)

theorem debugValue_line (p : Char → Bool) (v : Spec.Value) : '\n' ∉ debugValue p v := by
  have hd := decDigits_ne (z := '\n') (by decide +kernel)
  cases v with
  | bool b => cases b <;> simp [debugValue]
  | num n => exact hd n
  | text s =>
    simp only [debugValue, List.mem_cons, List.mem_append, List.mem_flatMap, List.not_mem_nil, or_false, not_or]
    exact ⟨by decide, fun ⟨c, _, h⟩ => debugChar_line p c h, by decide⟩
  | range a b =>
    simp only [debugValue, List.mem_cons, List.mem_append, List.not_mem_nil, or_false, not_or]
    exact ⟨by decide, ⟨⟨hd a, by decide⟩, hd b⟩, by decide⟩

theorem debugNum_ne {n : Nat} {z : Char} {s : Str} (hz : z ∉ hexChars) : Nat.toDigits 10 n ≠ z :: s := fun h =>
  decDigits_ne hz n (h ▸ List.mem_cons_self)

theorem debugValue_inj {p : Char → Bool} {v w : Spec.Value} (h : debugValue p v = debugValue p w) : v = w := by
  have hbool : ∀ b, ∃ z s, debugValue p (.bool b) = z :: s ∧ (z = 't' ∨ z = 'f') := by
    intro b; cases b
    · exact ⟨_, _, rfl, .inr rfl⟩
    · exact ⟨_, _, rfl, .inl rfl⟩
  have hbn : ∀ b n, debugValue p (.bool b) ≠ debugValue p (.num n) := by
    intro b n h
    cases b with
    | true => exact debugNum_ne (z := 't') (by decide +kernel) h.symm
    | false =>
      have h : L!"false" = Nat.toDigits 10 n := h
      have : 'l' ∈ Nat.toDigits 10 n := h ▸ (by decide)
      exact decDigits_ne (by decide +kernel) n this
  have hbt : ∀ b s, debugValue p (.bool b) ≠ debugValue p (.text s) := by
    intro b s h; cases b <;> exact absurd (List.cons.inj h).1 (by decide)
  have hbr : ∀ b x y, debugValue p (.bool b) ≠ debugValue p (.range x y) := by
    intro b x y h; cases b <;> exact absurd (List.cons.inj h).1 (by decide)
  have hnt : ∀ n s, debugValue p (.num n) ≠ debugValue p (.text s) := fun n s => debugNum_ne (by decide +kernel)
  have hnr : ∀ n x y, debugValue p (.num n) ≠ debugValue p (.range x y) := fun n x y => debugNum_ne (by decide +kernel)
  have htr : ∀ s x y, debugValue p (.text s) ≠ debugValue p (.range x y) := fun s x y h =>
    absurd (List.cons.inj h).1 (by decide)
  cases v with
  | bool b =>
    cases w with
    | bool b' => cases b <;> cases b' <;> first | rfl | exact absurd (List.cons.inj h).1 (by decide)
    | num n => exact absurd h (hbn _ _)
    | text s => exact absurd h (hbt _ _)
    | range x y => exact absurd h (hbr _ _ _)
  | num n =>
    cases w with
    | bool b' => exact absurd h.symm (hbn _ _)
    | num n' => rw [toDigits_inj (by decide) (by decide) _ _ h]
    | text s => exact absurd h (hnt _ _)
    | range x y => exact absurd h (hnr _ _ _)
  | text s =>
    cases w with
    | bool b' => exact absurd h.symm (hbt _ _)
    | num n' => exact absurd h.symm (hnt _ _)
    | text s' => rw [debugText_inj s s' (List.cons.inj h).2]
    | range x y => exact absurd h (htr _ _ _)
  | range a b =>
    cases w with
    | bool b' => exact absurd h.symm (hbr _ _ _)
    | num n' => exact absurd h.symm (hnr _ _ _)
    | text s' => exact absurd h.symm (htr _ _ _)
    | range x y =>
      have h := (List.cons.inj h).2
      simp only [List.append_assoc] at h
      obtain ⟨h1, h2⟩ := split_first (z := ',') (decDigits_ne (by decide +kernel) a) (decDigits_ne (by decide +kernel) x) h
      have h2 : Nat.toDigits 10 b ++ [')'] = Nat.toDigits 10 y ++ [')'] := (List.cons.inj h2).2
      have h3 := List.append_cancel_right h2
      rw [toDigits_inj (by decide) (by decide) _ _ h1, toDigits_inj (by decide) (by decide) _ _ h3]

end Luafmt
