import Verif.Proofs.Config

/-
C14: bad options change nothing. C15: options are independent and the last assignment wins.
-/
namespace Luafmt

/-- C14. An unknown option, or a value that is not well formed for the option, changes nothing. -/
theorem C14_bad_option_ignored (c : Config) (name s : Str)
    (h : ¬ Spec.Known name ∨ ∀ v, ¬ Spec.Denotes (Spec.kindOf name) s v) : c.set name s = c := by
  rw [set_eq]
  cases hl : optTable.lookup name with
  | none => rfl
  | some o =>
    rcases h with h | h
    · have := lookup_none.2 h
      rw [← table_agree, hl] at this
      cases this
    · rw [kind_agree hl] at h
      cases hv : parseValue o.kind s with
      | none => simp [hv]
      | some v => exact absurd ((parseValue_iff _ _ _).1 hv) (h v)

-- not vacuous: an unknown name, a misspelled number, a number that does not fit 64 bits
example : ¬ Spec.Known L!"remove_coments" := by unfold Spec.Known; decide +kernel
example : ∀ v, ¬ Spec.Denotes (Spec.kindOf L!"max_width") L!"12a" v := by
  intro v
  have : parseValue .num L!"12a" = none := by decide +kernel
  rw [show Spec.kindOf L!"max_width" = .num by decide +kernel, ← parseValue_iff, this]
  simp
example : ∀ v, ¬ Spec.Denotes (Spec.kindOf L!"max_width") L!"18446744073709551616" v := by
  intro v
  have : parseValue .num L!"18446744073709551616" = none := by decide +kernel
  rw [show Spec.kindOf L!"max_width" = .num by decide +kernel, ← parseValue_iff, this]
  simp

/-- C14, other direction. A known option with a well-formed value gets exactly that value. -/
theorem C14_good_option_set (c : Config) (name s : Str) (v : Spec.Value) (hk : Spec.Known name)
    (hv : Spec.Denotes (Spec.kindOf name) s v) : Spec.value (c.set name s) name = some v := by
  rw [set_eq]
  cases hl : optTable.lookup name with
  | none =>
    rw [table_agree] at hl
    exact absurd hk (lookup_none.1 hl)
  | some o =>
    rw [kind_agree hl] at hv
    have hp := (parseValue_iff _ _ _).2 hv
    rw [table_agree] at hl
    simp only [Spec.value, hl, hp, Option.bind_some]
    exact read_write_same c (parseValue_fits hp)

example : Spec.Known L!"line_range" ∧
    Spec.Denotes (Spec.kindOf L!"line_range") L!"30:40" (.range 30 40) := by
  constructor
  · unfold Spec.Known; decide +kernel
  · rw [show Spec.kindOf L!"line_range" = .range by decide +kernel, ← parseValue_iff]
    decide +kernel

/-- C15. An assignment to one option leaves every other option as it was. -/
theorem C15_set_other (c : Config) (n m s : Str) (h : m ≠ n) :
    Spec.value (c.set n s) m = Spec.value c m := by
  rw [set_eq]
  simp only [Spec.value, ← table_agree]
  cases hm : optTable.lookup m with
  | none => rfl
  | some o' =>
    simp only [Option.bind_some]
    cases hn : optTable.lookup n with
    | none => rfl
    | some o =>
      have hne : o' ≠ o := fun he => h (table_inj (he ▸ hm) hn)
      simp only
      cases parseValue o.kind s with
      | none => rfl
      | some v => exact read_write_other v c hne

example : L!"remove_comments" ≠ L!"remove_all_newlines" := by decide

/-- C15. Two configurations that agree on the value of every option are the same: the options are all
there is. -/
theorem C15_value_ext (c d : Config) (h : ∀ name, Spec.value c name = Spec.value d name) : c = d := by
  apply config_ext
  intro o
  obtain ⟨n, hn⟩ := table_surj o
  have := h n
  rw [table_agree] at hn
  simpa [Spec.value, hn] using this

/-- C15. Assignments to different options commute. -/
theorem C15_commute (c : Config) (n m s t : Str) (h : n ≠ m) :
    (c.set n s).set m t = (c.set m t).set n s := by
  apply config_ext
  intro o
  rw [set_eq (c.set n s), set_eq (c.set m t), set_eq c n, set_eq c m]
  cases hn : optTable.lookup n with
  | none => rfl
  | some on =>
    cases hm : optTable.lookup m with
    | none => rfl
    | some om =>
      have hne : on ≠ om := fun he => h (table_inj (he ▸ hn) hm)
      simp only
      cases hpn : parseValue on.kind s <;> cases hpm : parseValue om.kind t <;> try rfl
      rename_i v w
      have hv : parseValue on.kind s = some v := hpn
      have hw : parseValue om.kind t = some w := hpm
      by_cases h1 : o = on
      · subst h1
        rw [read_write_other _ _ hne, read_write_same _ (parseValue_fits hv),
          read_write_same _ (parseValue_fits hv)]
      · by_cases h2 : o = om
        · subst h2
          rw [read_write_other _ _ h1, read_write_same _ (parseValue_fits hw),
            read_write_same _ (parseValue_fits hw)]
        · rw [read_write_other _ _ h2, read_write_other _ _ h1, read_write_other _ _ h1,
            read_write_other _ _ h2]

/-- C15. Of two valid assignments to the same option only the second counts. -/
theorem C15_last_wins (c : Config) (n s t : Str) (v : Spec.Value)
    (h : Spec.Denotes (Spec.kindOf n) t v) : (c.set n s).set n t = c.set n t := by
  apply config_ext
  intro o
  rw [set_eq (c.set n s), set_eq c n s, set_eq c n t]
  cases hn : optTable.lookup n with
  | none => rfl
  | some on =>
    rw [kind_agree hn] at h
    have hw := (parseValue_iff _ _ _).2 h
    simp only [hw]
    by_cases h1 : o = on
    · subst h1
      rw [read_write_same _ (parseValue_fits hw), read_write_same _ (parseValue_fits hw)]
    · rw [read_write_other _ _ h1, read_write_other _ _ h1]
      cases parseValue on.kind s with
      | none => rfl
      | some w => exact read_write_other _ _ h1

example : Spec.Denotes (Spec.kindOf L!"remove_comments") L!"false" (.bool false) := by
  rw [show Spec.kindOf L!"remove_comments" = .bool by decide +kernel]
  exact .false

end Luafmt
