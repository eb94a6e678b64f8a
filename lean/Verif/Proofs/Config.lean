import Verif.Spec.Options

/-
Lemmas about options.
-/
namespace Luafmt

theorem lookup_mem {α β : Type} [BEq α] [LawfulBEq α] {l : List (α × β)} {a : α} {b : β}
    (h : l.lookup a = some b) : (a, b) ∈ l := by
  induction l with
  | nil => simp at h
  | cons p l ih =>
    rw [List.lookup_cons] at h
    split at h
    · rename_i hb
      simp at hb h
      subst hb; subst h
      simp
    · exact List.mem_cons_of_mem _ (ih h)

theorem lookup_none {α β : Type} [BEq α] [LawfulBEq α] {l : List (α × β)} {a : α} :
    l.lookup a = none ↔ a ∉ l.map Prod.fst := by
  induction l with
  | nil => simp
  | cons p l ih =>
    rw [List.lookup_cons]
    split
    · rename_i hb
      simp at hb
      simp [hb]
    · rename_i hb
      simp at hb
      simp [ih, hb]

/-- The two tables agree. -/
theorem table_agree (name : Str) : optTable.lookup name = Spec.options.lookup name := by
  have h1 : ∀ p ∈ optTable, Spec.options.lookup p.1 = some p.2 := by decide +kernel
  have h2 : ∀ p ∈ Spec.options, optTable.lookup p.1 = some p.2 := by decide +kernel
  cases h : optTable.lookup name with
  | some o => exact (h1 _ (lookup_mem h)).symm
  | none =>
    cases h' : Spec.options.lookup name with
    | none => rfl
    | some o => simpa [h] using h2 _ (lookup_mem h')

/-- The kind of a setting. -/
def Opt.kind : Opt → Spec.Kind
  | .b _ => .bool
  | .n _ => .num
  | .s _ => .text
  | .line => .range

theorem kind_agree {name : Str} {o : Opt} (h : optTable.lookup name = some o) :
    Spec.kindOf name = o.kind := by
  have h1 : ∀ p ∈ optTable, Spec.kindOf p.1 = p.2.kind := by decide +kernel
  exact h1 _ (lookup_mem h)

/-- No two names share a setting. -/
theorem table_inj {n m : Str} {o : Opt} (h : optTable.lookup n = some o)
    (h' : optTable.lookup m = some o) : n = m := by
  have h1 : ∀ p ∈ optTable, ∀ q ∈ optTable, p.2 = q.2 → p.1 = q.1 := by decide +kernel
  exact h1 _ (lookup_mem h) _ (lookup_mem h') rfl

/-- Every setting has a name. -/
theorem table_surj (o : Opt) : ∃ n, optTable.lookup n = some o := by
  have h1 : ∀ p ∈ optTable, optTable.lookup p.1 = some p.2 := by decide +kernel
  have h2 : ∃ p ∈ optTable, p.2 = o := by
    cases o with
    | b o => cases o <;> decide +kernel
    | n o => cases o <;> decide +kernel
    | s o => cases o <;> decide +kernel
    | line => decide +kernel
  obtain ⟨p, hp, rfl⟩ := h2
  exact ⟨p.1, h1 p hp⟩

/-- The parsed value of a text for a setting. -/
def parseValue (k : Spec.Kind) (s : Str) : Option Spec.Value :=
  match k with
  | .bool => (parseBool s).map .bool
  | .num => (parseUsize s).map .num
  | .text => some (.text s)
  | .range => (parseLineRange s).map fun p => .range p.1 p.2

theorem digitsVal_eq (acc : Nat) (s : Str) :
    digitsVal acc s = s.foldl (fun acc d => 10 * acc + (d.toNat - '0'.toNat)) acc := by
  rfl

theorem isDigit_iff (c : Char) : isDigit c = true ↔ '0' ≤ c ∧ c ≤ '9' := by
  have h0 : ('0' : Char).toNat = 48 := rfl
  have h9 : ('9' : Char).toNat = 57 := rfl
  simp only [isDigit, Bool.and_eq_true, decide_eq_true_eq, Char.le_def, UInt32.le_iff_toNat_le]
  rfl

theorem parseDigits_iff (s : Str) (n : Nat) : parseDigits s = some n ↔ Spec.IsNumber s n := by
  simp only [parseDigits, Spec.IsNumber, Spec.decimal]
  rw [← digitsVal_eq]
  constructor
  · intro h
    split at h
    · rename_i hc
      obtain ⟨h1, h2, h3⟩ := hc
      simp at h
      subst h
      exact ⟨h1, fun d hd => (isDigit_iff d).1 (List.all_eq_true.1 h2 d hd), rfl, h3⟩
    · simp at h
  · rintro ⟨h1, h2, h3, h4⟩
    subst h3
    rw [if_pos ⟨h1, List.all_eq_true.2 fun d hd => (isDigit_iff d).2 (h2 d hd), h4⟩]

theorem splitAtChar_iff (ch : Char) (s a b : Str) :
    splitAtChar ch s = some (a, b) ↔ s = a ++ ch :: b ∧ ch ∉ a := by
  induction s generalizing a with
  | nil => simp [splitAtChar]
  | cons c s ih =>
    simp only [splitAtChar]
    split
    · rename_i h
      subst h
      cases a with
      | nil => simp [eq_comm]
      | cons x a => simp; rintro rfl _; simp
    · rename_i h
      simp only [Option.map_eq_some_iff]
      constructor
      · rintro ⟨⟨a', b'⟩, h1, h2⟩
        simp only [Prod.mk.injEq] at h2
        obtain ⟨rfl, rfl⟩ := h2
        obtain ⟨h3, h4⟩ := (ih a').1 h1
        exact ⟨by simp [h3], by simp [h4, Ne.symm h]⟩
      · rintro ⟨h1, h2⟩
        cases a with
        | nil => simp at h1; exact absurd h1.1 h
        | cons x a =>
          simp at h1 h2
          obtain ⟨rfl, h1⟩ := h1
          exact ⟨(a, b), (ih a).2 ⟨h1, h2.2⟩, rfl⟩

theorem not_digit_colon : ¬ ('0' ≤ ':' ∧ ':' ≤ '9') := by decide
theorem not_digit_plus : ¬ ('0' ≤ '+' ∧ '+' ≤ '9') := by decide

/-- The value parsers accept exactly the well-formed values. -/
theorem parseValue_iff (k : Spec.Kind) (s : Str) (v : Spec.Value) :
    parseValue k s = some v ↔ Spec.Denotes k s v := by
  cases k with
  | bool =>
    simp only [parseValue, parseBool]
    constructor
    · intro h
      split at h
      · rename_i h1; subst h1; simp at h; subst h; exact .true
      · split at h
        · rename_i h1; subst h1; simp at h; subst h; exact .false
        · simp at h
    · rintro (_ | _)
      · rfl
      · rfl
  | num =>
    simp only [parseValue, Option.map_eq_some_iff]
    constructor
    · rintro ⟨n, h, rfl⟩
      unfold parseUsize at h
      split at h
      · simp at h
      · split at h
        · rename_i h1; subst h1; exact .plusNum ((parseDigits_iff _ _).1 h)
        · exact .num ((parseDigits_iff _ _).1 h)
    · intro h
      cases h with
      | num h =>
        refine ⟨_, ?_, rfl⟩
        cases s with
        | nil => exact absurd rfl h.1
        | cons c r =>
          simp only [parseUsize]
          rw [if_neg]
          · exact (parseDigits_iff _ _).2 h
          · rintro rfl
            exact not_digit_plus (h.2.1 _ (by simp))
      | plusNum h =>
        exact ⟨_, by simpa [parseUsize] using (parseDigits_iff _ _).2 h, rfl⟩
  | text =>
    simp only [parseValue, Option.some.injEq]
    constructor
    · rintro rfl; exact .text
    · rintro ⟨⟩; rfl
  | range =>
    simp only [parseValue, Option.map_eq_some_iff]
    constructor
    · rintro ⟨⟨a, b⟩, h, rfl⟩
      unfold parseLineRange at h
      split at h
      · simp at h
      · rename_i x y hs
        split at h
        · rename_i p q hp hq
          simp at h
          obtain ⟨rfl, rfl⟩ := h
          rw [((splitAtChar_iff _ _ _ _).1 hs).1]
          exact .range ((parseDigits_iff _ _).1 hp) ((parseDigits_iff _ _).1 hq)
        · simp at h
    · intro h
      cases h with
      | @range s t a b h1 h2 =>
        refine ⟨(a, b), ?_, rfl⟩
        have : splitAtChar ':' (s ++ ':' :: t) = some (s, t) :=
          (splitAtChar_iff _ _ _ _).2 ⟨rfl, fun hm => not_digit_colon (h1.2.1 _ hm)⟩
        simp [parseLineRange, this, (parseDigits_iff _ _).2 h1, (parseDigits_iff _ _).2 h2]

/-- Write a setting. -/
def writeOpt (o : Opt) (v : Spec.Value) (c : Config) : Config :=
  match o, v with
  | .b o, .bool b => c.setBool o (some b)
  | .n o, .num n => c.setNum o (some n)
  | .s o, .text s => c.setStr o (some s)
  | .line, .range a b => { c with lineRange := some (a, b) }
  | _, _ => c

theorem set_eq (c : Config) (name s : Str) :
    c.set name s =
      match optTable.lookup name with
      | none => c
      | some o => match parseValue o.kind s with
        | some v => writeOpt o v c
        | none => c := by
  unfold Config.set
  cases optTable.lookup name with
  | none => rfl
  | some o =>
    cases o with
    | b o => simp only [Opt.kind, parseValue]; cases parseBool s <;> rfl
    | n o => simp only [Opt.kind, parseValue]; cases parseUsize s <;> rfl
    | s o => rfl
    | line => simp only [Opt.kind, parseValue]; cases parseLineRange s <;> rfl

/-- The value has the kind of the setting. -/
def Fits : Opt → Spec.Value → Prop
  | .b _, .bool _ | .n _, .num _ | .s _, .text _ | .line, .range _ _ => True
  | _, _ => False

theorem parseValue_fits {o : Opt} {s : Str} {v : Spec.Value} (h : parseValue o.kind s = some v) :
    Fits o v := by
  cases o <;> simp only [parseValue, Opt.kind, Option.map_eq_some_iff, Option.some.injEq] at h
  · obtain ⟨_, _, rfl⟩ := h; trivial
  · obtain ⟨_, _, rfl⟩ := h; trivial
  · subst h; trivial
  · obtain ⟨_, _, rfl⟩ := h; trivial

theorem read_write_same {o : Opt} {v : Spec.Value} (c : Config) (h : Fits o v) :
    Spec.read o (writeOpt o v c) = some v := by
  cases o <;> cases v <;> simp_all [Fits] <;>
    simp [writeOpt, Spec.read, Config.setBool, Config.setNum, Config.setStr, Config.bool, Config.num,
      Config.str, upd]

theorem read_write_other {o o' : Opt} (v : Spec.Value) (c : Config) (h : o' ≠ o) :
    Spec.read o' (writeOpt o v c) = Spec.read o' c := by
  cases o <;> cases v <;> cases o' <;>
    simp_all [writeOpt, Spec.read, Config.setBool, Config.setNum, Config.setStr, Config.bool,
      Config.num, Config.str, upd]

/-- A configuration is determined by its settings. -/
theorem config_ext {c d : Config} (h : ∀ o, Spec.read o c = Spec.read o d) : c = d := by
  obtain ⟨cl, ⟨cb, cn, cs⟩⟩ := c
  obtain ⟨dl, ⟨db, dn, ds⟩⟩ := d
  have map_inj : ∀ {α} {f : α → Spec.Value}, Function.Injective f → ∀ {x y : Option α},
      x.map f = y.map f → x = y := by
    intro α f hf x y hxy
    cases x <;> cases y <;> simp_all
    exact hf hxy
  have h1 : cb = db := by
    funext o
    exact map_inj (fun a b hab => by simpa using hab) (h (.b o))
  have h2 : cn = dn := by
    funext o
    exact map_inj (fun a b hab => by simpa using hab) (h (.n o))
  have h3 : cs = ds := by
    funext o
    exact map_inj (fun a b hab => by simpa using hab) (h (.s o))
  have h4 : cl = dl := by
    refine map_inj ?_ (h .line)
    rintro ⟨a, b⟩ ⟨a', b'⟩ hab
    simpa using hab
  subst h1 h2 h3 h4
  rfl

end Luafmt
