import Verif.Proofs.Display
import Verif.Props.Options

/-
C55: the listing of the options that `--verbose` prints.
-/
namespace Luafmt
open Spec

/-- The line of the listing for an option. -/
def listingLine (printable : Char → Bool) (name : Str) (v : Value) : Str :=
  '\t' :: (name ++ L!": " ++ debugValue printable v ++ L!",")

theorem displayTable_iff (name : Str) (o : Opt) : (name, o) ∈ displayTable ↔ options.lookup name = some o := by
  have h1 : ∀ p ∈ displayTable, options.lookup p.1 = some p.2 := by decide +kernel
  have h2 : ∀ p ∈ options, p ∈ displayTable := by decide +kernel
  exact ⟨fun h => h1 _ h, fun h => h2 _ (lookup_mem h)⟩

theorem name_chars {name : Str} (h : Known name) : ':' ∉ name ∧ '\n' ∉ name := by
  have h1 : ∀ p ∈ options, ':' ∉ p.1 ∧ '\n' ∉ p.1 := by decide +kernel
  obtain ⟨p, hp, rfl⟩ := List.mem_map.1 h
  exact h1 p hp

theorem value_known {c : Config} {name : Str} {v : Value} (h : value c name = some v) : Known name := by
  unfold value at h
  cases hl : options.lookup name with
  | none => simp [hl] at h
  | some o => exact List.mem_map.2 ⟨_, lookup_mem hl, rfl⟩

theorem listingLine_inj {p : Char → Bool} {n m : Str} {v w : Value} (hn : Known n) (hm : Known m)
    (h : listingLine p n v = listingLine p m w) : n = m ∧ v = w := by
  have h := (List.cons.inj h).2
  simp only [List.append_assoc] at h
  obtain ⟨h1, h2⟩ := split_first (z := ':') (name_chars hn).1 (name_chars hm).1 h
  have h2 : debugValue p v ++ [','] = debugValue p w ++ [','] := (List.cons.inj h2).2
  exact ⟨h1, debugValue_inj (List.append_cancel_right h2)⟩

/-- C55. The listing has one line for each option that is set, with its name and value, no line for any other option,
and nothing else but the braces around it. A value never continues on a further line. -/
theorem C55_listing (printable : Char → Bool) (c : Config) :
    ∃ ls : List Str, c.display printable = L!"{\n" ++ (ls.map (· ++ ['\n'])).flatten ++ L!"}" ∧ (∀ l ∈ ls, '\n' ∉ l) ∧
      (∀ l ∈ ls, ∃ name v, value c name = some v ∧ l = listingLine printable name v) ∧
      ∀ name v, Known name → (listingLine printable name v ∈ ls ↔ value c name = some v) := by
  let f : Str × Opt → Option Str := fun q => (read q.2 c).map (listingLine printable q.1)
  have hf : ∀ l, l ∈ displayTable.filterMap f ↔ ∃ name v, value c name = some v ∧ l = listingLine printable name v := by
    intro l
    simp only [List.mem_filterMap, f, Option.map_eq_some_iff]
    constructor
    · rintro ⟨⟨name, o⟩, hq, v, hv, rfl⟩
      exact ⟨name, v, by simp [value, (displayTable_iff name o).1 hq, hv], rfl⟩
    · rintro ⟨name, v, hv, rfl⟩
      unfold value at hv
      cases hl : options.lookup name with
      | none => simp [hl] at hv
      | some o =>
        rw [hl] at hv
        exact ⟨(name, o), (displayTable_iff name o).2 hl, v, hv, rfl⟩
  refine ⟨displayTable.filterMap f, ?_, ?_, fun l hl => (hf l).1 hl, fun name v hk => ?_⟩
  · unfold Config.display
    congr 2
    induction displayTable with
    | nil => rfl
    | cons q l ih =>
      rw [List.flatMap_cons, ih, List.filterMap_cons]
      cases hr : read q.2 c with
      | none => simp [displayOpt, f, hr]
      | some v => simp [displayOpt, f, hr, listingLine]
  · intro l hl
    obtain ⟨name, v, hv, rfl⟩ := (hf l).1 hl
    have h1 := (name_chars (value_known hv)).2
    have h2 := debugValue_line printable v
    simp only [listingLine, List.mem_cons, List.mem_append, not_or]
    exact ⟨by decide, ⟨⟨h1, by decide⟩, h2⟩, by decide⟩
  · rw [hf]
    constructor
    · rintro ⟨m, w, hv, e⟩
      obtain ⟨rfl, rfl⟩ := listingLine_inj hk (value_known hv) e
      exact hv
    · exact fun h => ⟨name, v, h, rfl⟩

theorem lines_inj : ∀ {ls ms : List Str} {x y : Str}, (∀ l ∈ ls, '\n' ∉ l) → (∀ l ∈ ms, '\n' ∉ l) → '\n' ∉ x → '\n' ∉ y →
    (ls.map (· ++ ['\n'])).flatten ++ x = (ms.map (· ++ ['\n'])).flatten ++ y → ls = ms
  | [], [], _, _, _, _, _, _, _ => rfl
  | [], m :: ms, x, y, _, _, hx, _, h => by
    refine absurd ?_ hx
    simp only [List.map_nil, List.flatten_nil, List.nil_append] at h
    rw [h]; simp
  | l :: ls, [], x, y, _, _, _, hy, h => by
    refine absurd ?_ hy
    simp only [List.map_nil, List.flatten_nil, List.nil_append] at h
    rw [← h]; simp
  | l :: ls, m :: ms, x, y, hl, hm, hx, hy, h => by
    simp only [List.map_cons, List.flatten_cons, List.append_assoc, List.singleton_append] at h
    obtain ⟨e, h⟩ := split_first (hl l (by simp)) (hm m (by simp)) h
    rw [e, lines_inj (fun l h => hl l (by simp [h])) (fun l h => hm l (by simp [h])) hx hy h]

/-- C55. The listing determines the configuration: different configurations have different listings. -/
theorem C55_listing_is_faithful (printable : Char → Bool) (c d : Config) (h : c.display printable = d.display printable) :
    c = d := by
  obtain ⟨ls, e1, n1, _, i1⟩ := C55_listing printable c
  obtain ⟨ms, e2, n2, _, i2⟩ := C55_listing printable d
  rw [e1, e2, List.append_assoc, List.append_assoc] at h
  have := lines_inj n1 n2 (by decide) (by decide) (List.append_cancel_left h)
  subst this
  refine C15_value_ext c d fun name => ?_
  by_cases hk : Known name
  · have key : ∀ v, value c name = some v ↔ value d name = some v := fun v => (i1 name v hk).symm.trans (i2 name v hk)
    cases hv : value c name with
    | some v => exact ((key v).1 hv).symm
    | none =>
      cases hw : value d name with
      | none => rfl
      | some w => rw [(key w).2 hw] at hv; cases hv
  · have none : ∀ c : Config, value c name = none := fun c => by
      cases hv : value c name with
      | none => rfl
      | some v => exact absurd (value_known hv) hk
    rw [none, none]

/-- C55. How values are written: truth values by their names, numbers by decimal digits, ordinary texts between quotes. -/
theorem C55_values (printable : Char → Bool) :
    debugValue printable (.bool true) = L!"true" ∧ debugValue printable (.bool false) = L!"false" ∧
    (∀ n, n < 2 ^ 64 → IsNumber (debugValue printable (.num n)) n) ∧
    (∀ s : Str, (∀ c ∈ s, printable c = true ∧ c ∉ ['\x00', '\t', '\r', '\n', '\\', '"']) →
      debugValue printable (.text s) = '"' :: (s ++ ['"'])) ∧
    ∀ v w, debugValue printable v = debugValue printable w → v = w := by
  refine ⟨rfl, rfl, fun n hn => ⟨Nat.toDigits_ne_nil, fun d hd => ?_, ?_, hn⟩, fun s hs => ?_, fun v w => debugValue_inj⟩
  · have := Nat.isDigit_of_mem_toDigits (by decide) (by decide) hd
    simp only [Char.isDigit, Bool.and_eq_true, decide_eq_true_eq] at this
    exact ⟨this.1, this.2⟩
  · have := Nat.ofDigitChars_ten_toDigits (n := n)
    rw [Nat.ofDigitChars] at this
    simpa [decimal, debugValue] using this
  · simp only [debugValue]
    congr 2
    induction s with
    | nil => rfl
    | cons c s ih =>
      obtain ⟨h1, h2⟩ := hs c (by simp)
      have hl : escapeTable.lookup c = none := lookup_none.2 h2
      rw [List.flatMap_cons, ih fun d hd => hs d (by simp [hd])]
      simp [debugChar, hl, h1]

/-- The listing of a configuration with options of all kinds, and a text that has to be escaped. -/
example : (((((Config.default.set L!"indentation_string" L!"\t").set L!"max_width" L!"080").set L!"remove_comments" L!"true").set
    L!"line_range" L!"3:14").set L!"field_separator" L!";").display (fun c => decide (' ' ≤ c)) =
    L!"{\n\tremove_comments: true,\n\tindentation_string: \"\\t\",\n\tfield_separator: \";\",\n\tmax_width: 80,\n\tline_range: (3, 14),\n}" := by
  decide +kernel

end Luafmt
