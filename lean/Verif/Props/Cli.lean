import Verif.Proofs.Cli

/-
C22, C36: the command line.
-/
namespace Luafmt
open Spec

/-- C22. Options are the arguments that start with a dash, in the given order; every other argument is a
path (paths are sorted). -/
theorem C22_arguments_are_split (args : List Str) :
    (splitArgs args).1 = args.filter (fun a => a.head? == some '-') ∧
    (splitArgs args).2.Perm (args.filter (fun a => !(a.head? == some '-'))) :=
  ⟨rfl, sortStrs_perm _⟩

/-- C22. Reading options: the configuration is changed by exactly the `--name=value` arguments, in order;
each switch is on if it was on before or occurs in one of its spellings. -/
theorem C22_options_are_read (args : List Str) (c : Config) (o : ProgramOpts) :
    ∃ l, ReadArgs args l ∧
      (parseOptions args c o).1 = l.foldl (fun c p => c.set p.1 p.2) c ∧
      ((parseOptions args c o).2.1.inplace = true ↔ o.inplace = true ∨ ∃ a ∈ args, a ∈ inplaceArgs) ∧
      ((parseOptions args c o).2.1.recursive = true ↔ o.recursive = true ∨ ∃ a ∈ args, a ∈ recursiveArgs) ∧
      ((parseOptions args c o).2.1.verbose = true ↔ o.verbose = true ∨ ∃ a ∈ args, a ∈ verboseArgs) := by
  induction args generalizing c o with
  | nil => exact ⟨[], .nil, rfl, by simp [parseOptions], by simp [parseOptions], by simp [parseOptions]⟩
  | cons a args ih =>
    obtain ⟨h1, h2, h3, h4⟩ := parseOption_eq a c o
    have hstep : (parseOptions (a :: args) c o).1 =
          (parseOptions args (parseOption a c o).1 (parseOption a c o).2.1).1 ∧
        (parseOptions (a :: args) c o).2.1 =
          (parseOptions args (parseOption a c o).1 (parseOption a c o).2.1).2.1 := ⟨rfl, rfl⟩
    obtain ⟨l, hl, e1, e2, e3, e4⟩ := ih (parseOption a c o).1 (parseOption a c o).2.1
    rw [hstep.1, hstep.2, e2, e3, e4, h2, h3, h4, e1, h1]
    have sw : ∀ L : List Str, ∀ P : Prop, ((P ∨ a ∈ L) ∨ ∃ b ∈ args, b ∈ L) ↔
        (P ∨ ∃ b ∈ a :: args, b ∈ L) := by
      intro L P
      simp [or_assoc]
    cases hm : matchConfigOpt a with
    | some p =>
      exact ⟨p :: l, .assign ((matchConfigOpt_iff a p.1 p.2).1 hm) hl, rfl, sw _ _, sw _ _, sw _ _⟩
    | none => exact ⟨l, .other ((matchConfigOpt_none a).1 hm) hl, rfl, sw _ _, sw _ _, sw _ _⟩

/-- The assignments among the arguments are determined by the arguments. -/
theorem C22_assignments_unique (args : List Str) (l l' : List (Str × Str)) (h : ReadArgs args l)
    (h' : ReadArgs args l') : l = l' := by
  have uniq : ∀ a n v m w, Assigns a n v → Assigns a m w → n = m ∧ v = w := by
    intro a n v m w h1 h2
    have e1 := (matchConfigOpt_iff a n v).2 h1
    have e2 := (matchConfigOpt_iff a m w).2 h2
    rw [e1] at e2
    simpa using e2
  induction h generalizing l' with
  | nil => cases h'; rfl
  | assign ha _ ih =>
    cases h' with
    | assign hb hr =>
      obtain ⟨rfl, rfl⟩ := uniq _ _ _ _ _ ha hb
      rw [ih _ hr]
    | other hb hr => exact absurd ha (hb _ _)
  | other ha _ ih =>
    cases h' with
    | assign hb hr => exact absurd hb (ha _ _)
    | other _ hr => exact ih _ hr

/-- C22. The order of the arguments is irrelevant for the switches. -/
theorem C22_switch_order (args args' : List Str) (c c' : Config) (o : ProgramOpts) (h : args.Perm args') :
    (parseOptions args c o).2.1 = (parseOptions args' c' o).2.1 := by
  obtain ⟨_, _, _, a1, a2, a3⟩ := C22_options_are_read args c o
  obtain ⟨_, _, _, b1, b2, b3⟩ := C22_options_are_read args' c' o
  have sw : ∀ L : List Str, (∃ a ∈ args, a ∈ L) ↔ (∃ a ∈ args', a ∈ L) := by
    intro L
    constructor
    · rintro ⟨a, h1, h2⟩; exact ⟨a, h.mem_iff.1 h1, h2⟩
    · rintro ⟨a, h1, h2⟩; exact ⟨a, h.mem_iff.2 h1, h2⟩
  rw [sw] at a1 a2 a3
  have e1 := a1.trans b1.symm
  have e2 := a2.trans b2.symm
  have e3 := a3.trans b3.symm
  generalize (parseOptions args c o).2.1 = x at *
  generalize (parseOptions args' c' o).2.1 = y at *
  obtain ⟨x1, x2, x3⟩ := x
  obtain ⟨y1, y2, y3⟩ := y
  simp only at e1 e2 e3
  rw [Bool.eq_iff_iff.2 e1, Bool.eq_iff_iff.2 e2, Bool.eq_iff_iff.2 e3]

example : ReadArgs [L!"-r", L!"--max_width=80", L!"--nonsense", L!"--hint_before_comment=a=b", L!"--=3"]
    [(L!"max_width", L!"80"), (L!"hint_before_comment", L!"a=b")] := by
  have no : ∀ a, matchConfigOpt a = none → ∀ n v, ¬ Assigns a n v := fun a h => (matchConfigOpt_none a).1 h
  exact .other (no _ (by decide +kernel))
    (.assign ((matchConfigOpt_iff _ _ _).1 (by decide +kernel))
      (.other (no _ (by decide +kernel))
        (.assign ((matchConfigOpt_iff _ _ _).1 (by decide +kernel))
          (.other (no _ (by decide +kernel)) .nil))))

/-- C36. Without path arguments the file system is neither changed nor looked at: the outputs are the same
for any two file systems and working directories. -/
theorem C36_stdin_mode (args : List Str) (h : ∀ a ∈ args, a.head? = some '-') (stdin : Option Str)
    (cwd cwd' : Path) (fs fs' : FS) :
    (runMain args cwd stdin fs).fs = fs ∧
    (runMain args cwd stdin fs).out = (runMain args cwd' stdin fs').out ∧
    (runMain args cwd stdin fs).err = (runMain args cwd' stdin fs').err ∧
    (runMain args cwd stdin fs).aborted = (runMain args cwd' stdin fs').aborted := by
  have hs : (splitArgs args).2 = [] := by
    have : (args.filter fun s => !isOption s) = [] := by
      rw [List.filter_eq_nil_iff]
      intro a ha
      simp [isOption, h a ha]
    simp [splitArgs, this, sortStrs]
  unfold runMain
  simp only [hs, if_true]
  cases stdin with
  | none => simp
  | some text =>
    simp only
    cases format (parseOptions (splitArgs args).1 Config.default ⟨false, false, false⟩).1 text <;> simp

/-- C36. What is printed is the result of formatting standard input with the configuration given by the
options. -/
theorem C36_stdin_output (args : List Str) (h : ∀ a ∈ args, a.head? = some '-') (text : Str)
    (cwd : Path) (fs : FS) (l : List (Str × Str)) (hl : ReadArgs args l) (s : Str)
    (hf : format (l.foldl (fun c p => c.set p.1 p.2) Config.default) text = .ok s) :
    (runMain args cwd (some text) fs).out.filterMap (fun
      | .text s => some s
      | .verbose => none) = [s] ∧ (runMain args cwd (some text) fs).aborted = false := by
  have hs : (splitArgs args).2 = [] ∧ (splitArgs args).1 = args := by
    have h1 : (args.filter fun s => !isOption s) = [] := by
      rw [List.filter_eq_nil_iff]
      intro a ha
      simp [isOption, h a ha]
    have h2 : args.filter isOption = args := by
      rw [List.filter_eq_self]
      intro a ha
      simp [isOption, h a ha]
    simp [splitArgs, h1, h2, sortStrs]
  obtain ⟨l', hl', e, _⟩ := C22_options_are_read args Config.default ⟨false, false, false⟩
  have := C22_assignments_unique args l l' hl hl'
  subst this
  unfold runMain
  simp only [hs.1, hs.2, if_true, e, hf]
  cases (parseOptions args Config.default ⟨false, false, false⟩).2.1.verbose <;> simp

/-- `echo 'x=1' | luafmt -v --hint_table_constructor=" "`. -/
example : format ([(L!"hint_table_constructor", L!" ")].foldl (fun c p => c.set p.1 p.2) Config.default)
    L!"x={1}" = .ok L!"x={1}" := by decide +kernel

end Luafmt
