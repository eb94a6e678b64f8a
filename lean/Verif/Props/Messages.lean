import Verif.Spec.Messages
import Verif.Props.ConfigFile

/-
C53, C54: what is reported on stderr.
-/
namespace Luafmt
open Spec

/-! ### C53 -/

theorem setMsg_iff (n v : Str) : (Config.setMsg n v = none ∧ Known n ∧ ∃ x, Denotes (kindOf n) v x) ∨
    (Config.setMsg n v = some (.invalidName n) ∧ ¬ Known n) ∨
    (Config.setMsg n v = some (.invalidOption n v) ∧ Known n ∧ ∀ x, ¬ Denotes (kindOf n) v x) := by
  unfold Config.setMsg
  cases hl : optTable.lookup n with
  | none =>
    refine .inr (.inl ⟨rfl, ?_⟩)
    rw [table_agree] at hl
    exact lookup_none.1 hl
  | some o =>
    have hK : Known n := by
      refine Classical.byContradiction fun h => ?_
      have := lookup_none.2 h
      rw [← table_agree, hl] at this
      cases this
    rw [kind_agree hl]
    simp only [← parseValue_iff]
    have key : ∀ x : Option Value, (x.isSome = true ∧ ∃ y, x = some y) ∨ (x.isSome = false ∧ ∀ y, x ≠ some y) := by
      intro x; cases x <;> simp
    have h := key (parseValue o.kind v)
    cases o with
    | s _ => exact .inl ⟨rfl, hK, _, rfl⟩
    | b _ =>
      simp only [Opt.kind, parseValue, Option.isSome_map] at h ⊢
      rcases h with ⟨h1, h2⟩ | ⟨h1, h2⟩
      · exact .inl ⟨by simp [h1], hK, h2⟩
      · exact .inr (.inr ⟨by simp [h1], hK, h2⟩)
    | n _ =>
      simp only [Opt.kind, parseValue, Option.isSome_map] at h ⊢
      rcases h with ⟨h1, h2⟩ | ⟨h1, h2⟩
      · exact .inl ⟨by simp [h1], hK, h2⟩
      · exact .inr (.inr ⟨by simp [h1], hK, h2⟩)
    | line =>
      simp only [Opt.kind, parseValue, Option.isSome_map] at h ⊢
      rcases h with ⟨h1, h2⟩ | ⟨h1, h2⟩
      · exact .inl ⟨by simp [h1], hK, h2⟩
      · exact .inr (.inr ⟨by simp [h1], hK, h2⟩)

theorem setMsg_fault (n v : Str) (m : Msg) : Config.setMsg n v = some m ↔ Fault n v m := by
  constructor
  · intro h
    rcases setMsg_iff n v with ⟨e, _⟩ | ⟨e, hk⟩ | ⟨e, hk, hx⟩
    · rw [e] at h; cases h
    · rw [e] at h; cases h; exact .unknownName hk
    · rw [e] at h; cases h; exact .badValue hk hx
  · intro h
    rcases setMsg_iff n v with ⟨_, hk, x, hx⟩ | ⟨e, hk⟩ | ⟨e, hk, hx⟩ <;> cases h with
    | unknownName h => first | exact absurd hk h | exact e
    | badValue h1 h2 => first | exact absurd hx (h2 x) | exact absurd h1 hk | exact e

/-- What is printed while a configuration file is read. -/
theorem configMsgs_fault {fs : FS} {c : Config} {p : Path} {m : Msg} (h : m ∈ configMsgs fs c p) :
    c.hasEmptyFormat = true ∧ ∃ q n v, fileConfig fs p = some q ∧ Fault n v m := by
  unfold configMsgs at h
  split at h
  · next hc =>
    simp only [Bool.and_eq_true] at hc
    refine ⟨hc.2, ?_⟩
    cases hq : fileConfig fs p with
    | none => simp [hq] at h
    | some q =>
      split at h
      · obtain ⟨x, _, hx⟩ := List.mem_filterMap.1 h
        exact ⟨q, x.1, x.2, rfl, (setMsg_fault _ _ _).1 hx⟩
      · cases h
  · cases h

theorem parseOption_msgs (s : Str) (c : Config) (o : ProgramOpts) :
    ((parseOption s c o).2.2 = [] ∧ Effective s) ∨ ∃ m, (parseOption s c o).2.2 = [m] ∧ Complaint s m := by
  have hi := switch_iff s L!"i" L!"inplace" (by decide) (by decide) (by decide) (by decide)
  have hr := switch_iff s L!"r" L!"recursive" (by decide) (by decide) (by decide) (by decide)
  have hv := switch_iff s L!"v" L!"verbose" (by decide) (by decide) (by decide) (by decide)
  change _ ↔ s ∈ inplaceArgs at hi
  change _ ↔ s ∈ recursiveArgs at hr
  change _ ↔ s ∈ verboseArgs at hv
  unfold parseOption
  cases hm : matchConfigOpt s with
  | some p =>
    have ha := (matchConfigOpt_iff s p.1 p.2).1 hm
    rcases setMsg_iff p.1 p.2 with ⟨e, hk, x, hx⟩ | ⟨e, hk⟩ | ⟨e, hk, hx⟩
    · exact .inl ⟨by simp [e], .assign ha hk hx⟩
    · exact .inr ⟨_, by simp only [e]; rfl, .unknownName ha hk⟩
    · exact .inr ⟨_, by simp only [e]; rfl, .badValue ha hk hx⟩
  | none =>
    have ha := (matchConfigOpt_none s).1 hm
    cases hq : matchProgramOpt s with
    | none =>
      refine .inr ⟨_, rfl, .notAnOption ha ?_⟩
      simp only [List.mem_append, ← hi, ← hr, ← hv, hq]
      simp
    | some n =>
      simp only
      by_cases h1 : n = L!"i" ∨ n = L!"inplace"
      · rw [if_pos h1]
        exact .inl ⟨rfl, .switch (by simp [← hi, hq, h1])⟩
      · rw [if_neg h1]
        by_cases h2 : n = L!"r" ∨ n = L!"recursive"
        · rw [if_pos h2]
          exact .inl ⟨rfl, .switch (by simp [← hr, hq, h2])⟩
        · rw [if_neg h2]
          by_cases h3 : n = L!"v" ∨ n = L!"verbose"
          · rw [if_pos h3]
            exact .inl ⟨rfl, .switch (by simp [← hv, hq, h3])⟩
          · rw [if_neg h3]
            refine .inr ⟨_, rfl, .notAnOption ha ?_⟩
            simp only [List.mem_append, ← hi, ← hr, ← hv, hq]
            simp only [Option.some.injEq, exists_eq_left', h1, h2, h3, or_false, not_false_iff]

theorem parseOptions_msgs (args : List Str) : ∀ (c : Config) (o : ProgramOpts), Complaints args (parseOptions args c o).2.2 := by
  induction args with
  | nil => intro c o; exact .nil
  | cons a args ih =>
    intro c o
    have e : (parseOptions (a :: args) c o).2.2 = (parseOption a c o).2.2 ++
        (parseOptions args (parseOption a c o).1 (parseOption a c o).2.1).2.2 := rfl
    rw [e]
    rcases parseOption_msgs a c o with ⟨e1, h⟩ | ⟨m, e1, h⟩
    · rw [e1]; exact .fine h (ih _ _)
    · rw [e1]; exact .bad h (ih _ _)

/-- A message that is not about an argument: about a file, a path or the standard input, or, if no argument sets a format
option, about a setting in the configuration file of one of the files `S`. -/
def Later (fs : FS) (c : Config) (S : Path → Prop) (m : Msg) : Prop :=
  AboutFiles m ∨ c.hasEmptyFormat = true ∧ ∃ p q n v, S p ∧ fileConfig fs p = some q ∧ Fault n v m

/-- What a run adds to the messages about the options. -/
theorem runMain_err (args : List Str) (cwd : Path) (stdin : Option Str) (fs : FS) :
    ∃ rest, (runMain args cwd stdin fs).err = (parseOptions (splitArgs args).1 .default ⟨false, false, false⟩).2.2 ++ rest ∧
      ∀ m ∈ rest, Later fs (cliConfig args) (· ∈ filesOf fs cwd args) m := by
  have trans : ∀ {c S} {a b d : List Msg}, (∃ r, b = a ++ r ∧ ∀ m ∈ r, Later fs c S m) →
      (∃ r, d = b ++ r ∧ ∀ m ∈ r, Later fs c S m) → ∃ r, d = a ++ r ∧ ∀ m ∈ r, Later fs c S m := by
    rintro c S a b d ⟨r, rfl, h⟩ ⟨r', rfl, h'⟩
    refine ⟨r ++ r', by simp, fun m hm => ?_⟩
    rcases List.mem_append.1 hm with hm | hm
    · exact h m hm
    · exact h' m hm
  have none : ∀ c S (a : List Msg), ∃ r, a = a ++ r ∧ ∀ m ∈ r, Later fs c S m :=
    fun c S a => ⟨[], by simp, fun m hm => by cases hm⟩
  have one : ∀ c S (a : List Msg) m, AboutFiles m → ∃ r, a ++ [m] = a ++ r ∧ ∀ m ∈ r, Later fs c S m :=
    fun c S a m h => ⟨[m], rfl, fun m' hm => by cases List.mem_singleton.1 hm; exact .inl h⟩
  have conf : ∀ c (S : Path → Prop) (a : List Msg) fs1 p, SameShape fs fs1 → S p →
      ∃ r, a ++ configMsgs fs1 c p = a ++ r ∧ ∀ m ∈ r, Later fs c S m :=
    fun c S a fs1 p hs hp => ⟨_, rfl, fun m hm => by
      obtain ⟨h, q, n, v, h1, h2⟩ := configMsgs_fault hm
      exact .inr ⟨h, p, q, n, v, hp, hs.config p ▸ h1, h2⟩⟩
  have path : ∀ c o (S : Path → Prop) p (w : World), SameShape fs w.fs → S p →
      ∃ r, (processPath c o p w).err = w.err ++ r ∧ ∀ m ∈ r, Later fs c S m := by
    intro c o S p w hs hp
    unfold processPath
    split
    · exact none _ _ _
    · simp only
      split
      · exact conf _ _ _ _ _ hs hp
      · exact trans (conf c S w.err w.fs p hs hp) (one _ _ _ _ trivial)
      · split
        · split
          · exact conf _ _ _ _ _ hs hp
          · exact trans (conf c S w.err w.fs p hs hp) (one _ _ _ _ trivial)
        · exact conf _ _ _ _ _ hs hp
  have paths : ∀ c o (S : Path → Prop) (ps : List Path) (w : World), SameShape fs w.fs → (∀ p ∈ ps, S p) →
      ∃ r, (ps.foldl (fun w p => processPath c o p w) w).err = w.err ++ r ∧ ∀ m ∈ r, Later fs c S m := by
    intro c o S ps
    induction ps with
    | nil => exact fun w _ _ => none _ _ _
    | cons p ps ih =>
      exact fun w hs hp => trans (path c o S p w hs (hp p (by simp)))
        (ih _ (hs.trans (processPath_shape c o p w)) fun q hq => hp q (by simp [hq]))
  have arg : ∀ c o (S : Path → Prop) s (w : World), SameShape fs w.fs →
      (∀ p ∈ (getPathFiles fs o.recursive (resolve cwd s)).getD [], S p) →
      ∃ r, (processArg cwd c o s w).err = w.err ++ r ∧ ∀ m ∈ r, Later fs c S m := by
    intro c o S s w hs hp
    unfold processArg
    rw [hs.listing]
    split
    · exact none _ _ _
    · split
      · next ps hg => exact paths _ _ _ _ _ hs (by rw [hg] at hp; exact hp)
      · exact one _ _ _ _ trivial
  have all : ∀ c o (S : Path → Prop) (ss : List Str) (w : World), SameShape fs w.fs →
      (∀ p ∈ (ss.map fun s => (getPathFiles fs o.recursive (resolve cwd s)).getD []).flatten, S p) →
      ∃ r, (ss.foldl (fun w s => processArg cwd c o s w) w).err = w.err ++ r ∧ ∀ m ∈ r, Later fs c S m := by
    intro c o S ss
    induction ss with
    | nil => exact fun w _ _ => none _ _ _
    | cons s ss ih =>
      intro w hs hp
      simp only [List.map_cons, List.flatten_cons, List.mem_append] at hp
      exact trans (arg c o S s w hs fun p h => hp p (.inl h))
        (ih _ (hs.trans (processArg_shape cwd c o s w)) fun p h => hp p (.inr h))
  unfold runMain
  simp only
  split
  · split
    · exact none _ _ _
    · split
      · exact none _ _ _
      · exact one _ _ _ _ trivial
      · exact none _ _ _
  · exact all _ _ _ _ _ (.refl fs) fun p h => h

/-- C53. What a run writes on stderr begins with one complaint for each argument that begins with a dash and is neither
a switch nor the assignment of a well-formed value to an existing option, in the order of the arguments; there is no
complaint about any other argument. The messages behind them are about files, or, if no argument sets a format option,
about bad settings when a selected file has a configuration file. -/
theorem C53_bad_arguments_are_reported (args : List Str) (cwd : Path) (stdin : Option Str) (fs : FS) :
    ∃ ms rest, (runMain args cwd stdin fs).err = ms ++ rest ∧
      Complaints (args.filter fun a => a.head? == some '-') ms ∧
      ∀ m ∈ rest, AboutFiles m ∨ (cliConfig args).hasEmptyFormat = true ∧
        ∃ p q n v, p ∈ filesOf fs cwd args ∧ fileConfig fs p = some q ∧ Fault n v m := by
  obtain ⟨rest, e, h⟩ := runMain_err args cwd stdin fs
  exact ⟨_, rest, e, parseOptions_msgs _ _ _, h⟩

/-- C53. No argument is both effective and complained about, and there is one complaint due for each. -/
theorem C53_effective_or_complaint (a : Str) (m m' : Msg) (h : Complaint a m) :
    ¬ Effective a ∧ (Complaint a m' → m' = m) := by
  have uniq : ∀ {n v n' w : Str}, Assigns a n v → Assigns a n' w → n = n' ∧ v = w := by
    intro n v n' w h1 h2
    have e1 := (matchConfigOpt_iff a n v).2 h1
    rw [(matchConfigOpt_iff a n' w).2 h2] at e1
    simpa using e1.symm
  have sw : ∀ {n v : Str}, Assigns a n v → a ∉ inplaceArgs ++ recursiveArgs ++ verboseArgs := by
    intro n v h1 h2
    have := assigns_not_switch a n v h1
    simp only [inplaceArgs, recursiveArgs, verboseArgs, List.mem_append, List.mem_cons, List.not_mem_nil, or_false] at h2
    rcases h2 with ((h | h | h | h) | h | h | h | h) | h | h | h | h <;> (subst h; revert this; decide +kernel)
  cases h with
  | notAnOption h1 h2 =>
    refine ⟨fun h => ?_, fun h => ?_⟩
    · cases h with
      | assign h => exact h1 _ _ h
      | switch h => exact h2 h
    · cases h with
      | notAnOption => rfl
      | unknownName h => exact absurd h (h1 _ _)
      | badValue h => exact absurd h (h1 _ _)
  | unknownName h1 h2 =>
    refine ⟨fun h => ?_, fun h => ?_⟩
    · cases h with
      | assign h hk => exact h2 ((uniq h1 h).1 ▸ hk)
      | switch h => exact sw h1 h
    · cases h with
      | notAnOption h => exact absurd h1 (h _ _)
      | unknownName h => rw [(uniq h1 h).1]
      | badValue h hk => exact absurd ((uniq h1 h).1 ▸ hk) h2
  | badValue h1 h2 h3 =>
    refine ⟨fun h => ?_, fun h => ?_⟩
    · cases h with
      | assign h hk hx =>
        obtain ⟨rfl, rfl⟩ := uniq h1 h
        exact h3 _ hx
      | switch h => exact sw h1 h
    · cases h with
      | notAnOption h => exact absurd h1 (h _ _)
      | unknownName h hk => exact absurd ((uniq h1 h).1 ▸ h2) hk
      | badValue h =>
        obtain ⟨rfl, rfl⟩ := uniq h1 h
        rfl

/-- A run with a misspelled name, a value that is no number, an unknown switch and three good options. -/
example : (runMain [L!"--max_widht=80", L!"-i", L!"--max_width=8o", L!"-x", L!"--max_width=80", L!"--indentation_string="] []
    (some L!"a=1") (.dir true [])).err =
    [.invalidName L!"max_widht", .invalidOption L!"max_width" L!"8o", .unrecognizedOption L!"-x"] := by decide +kernel

/-! ### C54 -/

/-- What part of a run does: from `w` to `r`, with the arguments `bad` that cannot be resolved and the files `ps`. -/
structure Report (c : Config) (o : ProgramOpts) (fs : FS) (w r : World) (bad : List Str) (ps : List Path) : Prop where
  shape : SameShape fs r.fs
  err : ∀ m ∈ w.err, m ∈ r.err
  out : ∀ s ∈ texts w.out, s ∈ texts r.out
  unresolved : ∀ s ∈ bad, .unresolvedPath s ∈ r.err
  done : ∀ p ∈ ps, (∃ e, .processing p e ∈ r.err) ∨ .writing p ∈ r.err ∨ ∃ fs1 s, SameShape fs fs1 ∧
    processFile fs1 c p = .ok s ∧ if o.inplace = true then r.fs.read p = some s else s ∈ texts r.out
  config : ∀ p ∈ ps, ∃ fs1, SameShape fs fs1 ∧ ∀ m ∈ configMsgs fs1 c p, m ∈ r.err
  others : ∀ p, p ∉ ps → r.fs.read p = w.fs.read p
  only : ∀ m ∈ r.err, m ∈ w.err ∨ (∃ s ∈ bad, m = .unresolvedPath s) ∨ ∃ p ∈ ps,
    (∃ e fs1, m = .processing p e ∧ SameShape fs fs1 ∧ processFile fs1 c p = .error e) ∨
    (m = .writing p ∧ o.inplace = true ∧ fs.canWrite p = false) ∨
    (∃ fs1, SameShape fs fs1 ∧ m ∈ configMsgs fs1 c p)

theorem Report.refl {c : Config} {o : ProgramOpts} {fs : FS} {w : World} (h : SameShape fs w.fs) : Report c o fs w w [] [] :=
  ⟨h, fun _ h => h, fun _ h => h, fun _ h => (by cases h), fun _ h => (by cases h),
    fun _ h => (by cases h), fun _ _ => rfl, fun _ h => .inl h⟩

theorem Report.trans {c : Config} {o : ProgramOpts} {fs : FS} {w v r : World} {bad bad' : List Str} {ps ps' : List Path}
    (h : Report c o fs w v bad ps) (h' : Report c o fs v r bad' ps') : Report c o fs w r (bad ++ bad') (ps ++ ps') where
  shape := h'.shape
  err := fun m hm => h'.err m (h.err m hm)
  out := fun m hm => h'.out m (h.out m hm)
  unresolved := fun s hs => by
    rcases List.mem_append.1 hs with hs | hs
    · exact h'.err _ (h.unresolved s hs)
    · exact h'.unresolved s hs
  done := fun p hp => by
    by_cases hp' : p ∈ ps'
    · exact h'.done p hp'
    · rcases h.done p ((List.mem_append.1 hp).resolve_right hp') with ⟨e, he⟩ | he | ⟨fs1, s, h1, h2, h3⟩
      · exact .inl ⟨e, h'.err _ he⟩
      · exact .inr (.inl (h'.err _ he))
      · refine .inr (.inr ⟨fs1, s, h1, h2, ?_⟩)
        split at h3
        · next hi => rw [if_pos hi, h'.others p hp']; exact h3
        · next hi => rw [if_neg hi]; exact h'.out _ h3
  config := fun p hp => by
    rcases List.mem_append.1 hp with hp | hp
    · obtain ⟨fs1, h1, h2⟩ := h.config p hp
      exact ⟨fs1, h1, fun m hm => h'.err m (h2 m hm)⟩
    · exact h'.config p hp
  others := fun p hp => by
    simp only [List.mem_append, not_or] at hp
    rw [h'.others p hp.2, h.others p hp.1]
  only := fun m hm => by
    rcases h'.only m hm with hm | ⟨s, hs, e⟩ | ⟨p, hp, e⟩
    · rcases h.only m hm with hm | ⟨s, hs, e⟩ | ⟨p, hp, e⟩
      · exact .inl hm
      · exact .inr (.inl ⟨s, by simp [hs], e⟩)
      · exact .inr (.inr ⟨p, by simp [hp], e⟩)
    · exact .inr (.inl ⟨s, by simp [hs], e⟩)
    · exact .inr (.inr ⟨p, by simp [hp], e⟩)

theorem processPath_report {c : Config} {o : ProgramOpts} {fs : FS} {w : World} {p : Path} (hw : SameShape fs w.fs)
    (ha : (processPath c o p w).aborted = false) : Report c o fs w (processPath c o p w) [] [p] := by
  have h0 : w.aborted = false := by
    cases h : w.aborted with
    | false => rfl
    | true => rw [processPath_id_of_aborted _ _ _ _ h, h] at ha; cases ha
  have hread : ∀ q, q ∉ [p] → (processPath c o p w).fs.read q = w.fs.read q :=
    fun q hq => (C20_one_file c o p w h0).1 q (by simpa using hq)
  have hsh := hw.trans (processPath_shape c o p w)
  have ho := processPath_out c o p w h0
  have key : ∀ ms, (processPath c o p w).err = w.err ++ configMsgs w.fs c p ++ ms →
      ((∃ e, .processing p e ∈ ms) ∨ .writing p ∈ ms ∨ ∃ fs1 s, SameShape fs fs1 ∧
        processFile fs1 c p = .ok s ∧ if o.inplace = true then (processPath c o p w).fs.read p = some s
          else s ∈ texts (processPath c o p w).out) →
      (∀ m ∈ ms, (∃ e fs1, m = .processing p e ∧ SameShape fs fs1 ∧ processFile fs1 c p = .error e) ∨
        (m = .writing p ∧ o.inplace = true ∧ fs.canWrite p = false)) →
      Report c o fs w (processPath c o p w) [] [p] := by
    intro ms he hd hm
    refine ⟨hsh, fun m hm => by simp [he, hm], fun s hs => by simp [ho, hs], fun _ h => (by cases h), fun q hq => ?_,
      fun q hq => ?_, hread, fun m h => ?_⟩
    · cases List.mem_singleton.1 hq
      rcases hd with ⟨e, h⟩ | h | h
      · exact .inl ⟨e, by simp [he, h]⟩
      · exact .inr (.inl (by simp [he, h]))
      · exact .inr (.inr h)
    · cases List.mem_singleton.1 hq
      exact ⟨w.fs, hw, fun m hm => by simp [he, hm]⟩
    · rw [he] at h
      rcases List.mem_append.1 h with h | h
      · rcases List.mem_append.1 h with h | h
        · exact .inl h
        · exact .inr (.inr ⟨p, by simp, .inr (.inr ⟨w.fs, hw, h⟩)⟩)
      · rcases hm m h with h | h
        · exact .inr (.inr ⟨p, by simp, .inl h⟩)
        · exact .inr (.inr ⟨p, by simp, .inr (.inl h)⟩)
  cases hp : processFile w.fs c p with
  | panic => rw [(processPath_aborted c o p w h0).2 hp] at ha; cases ha
  | error e =>
    refine key [.processing p e] (by simp [processPath, h0, hp]) (.inl ⟨e, by simp⟩) fun m hm => ?_
    exact .inl ⟨e, w.fs, List.mem_singleton.1 hm, hw, hp⟩
  | ok s =>
    by_cases hi : o.inplace = true
    · by_cases hc : w.fs.canWrite p = true
      · refine key [] (by simp [processPath, h0, hp, hi, hc]) (.inr (.inr ⟨w.fs, s, hw, hp, ?_⟩)) fun m hm => by cases hm
        rw [if_pos hi]
        exact (C20_one_file c o p w h0).2.1 s hp hi hc
      · refine key [.writing p] (by simp [processPath, h0, hp, hi, hc]) (.inr (.inl (by simp))) fun m hm => ?_
        refine .inr ⟨List.mem_singleton.1 hm, hi, ?_⟩
        rw [← hw.canWrite]
        simpa using hc
    · refine key [] (by simp [processPath, h0, hp, hi]) (.inr (.inr ⟨w.fs, s, hw, hp, ?_⟩)) fun m hm => by cases hm
      rw [if_neg hi, ho]
      simp [prints, hp, hi]

theorem foldPaths_aborted {c : Config} {o : ProgramOpts} {ps : List Path} {w : World}
    (ha : (ps.foldl (fun w p => processPath c o p w) w).aborted = false) : w.aborted = false := by
  induction ps generalizing w with
  | nil => exact ha
  | cons p ps ih =>
    have : (processPath c o p w).aborted = false := ih ha
    cases h : w.aborted with
    | false => rfl
    | true => rw [processPath_id_of_aborted _ _ _ _ h, h] at this; cases this

theorem foldPaths_report {c : Config} {o : ProgramOpts} {fs : FS} (ps : List Path) : ∀ {w : World}, SameShape fs w.fs →
    (ps.foldl (fun w p => processPath c o p w) w).aborted = false →
    Report c o fs w (ps.foldl (fun w p => processPath c o p w) w) [] ps := by
  induction ps with
  | nil => exact fun hw _ => .refl hw
  | cons p ps ih =>
    intro w hw ha
    have h := processPath_report hw (foldPaths_aborted ha)
    exact h.trans (ih h.shape ha)

theorem foldArgs_report {cwd : Path} {c : Config} {o : ProgramOpts} {fs : FS} (ss : List Str) : ∀ {w : World}, SameShape fs w.fs →
    (ss.foldl (fun w s => processArg cwd c o s w) w).aborted = false →
    w.aborted = false ∧ Report c o fs w (ss.foldl (fun w s => processArg cwd c o s w) w)
      (ss.filter fun s => (getPathFiles fs o.recursive (resolve cwd s)).isNone)
      ((ss.map fun s => (getPathFiles fs o.recursive (resolve cwd s)).getD []).flatten) := by
  induction ss with
  | nil => exact fun hw ha => ⟨ha, .refl hw⟩
  | cons s ss ih =>
    intro w hw ha
    obtain ⟨h1, h2⟩ := ih (hw.trans (processArg_shape cwd c o s w)) ha
    have h0 : w.aborted = false := by
      cases h : w.aborted with
      | false => rfl
      | true => simp [processArg, h] at h1
    refine ⟨h0, ?_⟩
    have : Report c o fs w (processArg cwd c o s w) ([s].filter fun s => (getPathFiles fs o.recursive (resolve cwd s)).isNone)
        ((getPathFiles fs o.recursive (resolve cwd s)).getD []) := by
      unfold processArg at h1 ⊢
      rw [h0, if_neg (by simp), hw.listing] at h1 ⊢
      cases hg : getPathFiles fs o.recursive (resolve cwd s) with
      | some ps =>
        rw [hg] at h1
        simpa [hg] using foldPaths_report ps hw h1
      | none =>
        simp only [List.filter_cons, hg, Option.isNone_none, if_true, List.filter_nil, Option.getD_none]
        exact ⟨hw, fun m hm => by simp [hm], fun _ h => h, fun t ht => by simp [List.mem_singleton.1 ht], fun _ h => (by cases h),
          fun _ h => (by cases h),
          fun _ _ => rfl, fun m hm => by
            rcases List.mem_append.1 hm with hm | hm
            · exact .inl hm
            · exact .inr (.inl ⟨s, by simp, List.mem_singleton.1 hm⟩)⟩
    have := this.trans h2
    rwa [← List.filter_append, List.singleton_append] at this

/-- C54. Nothing fails silently: if a run is not ended by a panic, each path argument that cannot be resolved is reported,
and each selected file is reported, or its formatted text is in the file (with `-i`) or printed (without). -/
theorem C54_failures_are_reported (args : List Str) (cwd : Path) (stdin : Option Str) (fs : FS)
    (hs : (splitArgs args).2 ≠ []) (ha : (runMain args cwd stdin fs).aborted = false) :
    (∀ s ∈ args, s.head? ≠ some '-' → getPathFiles fs (switches args).recursive (resolve cwd s) = none →
      .unresolvedPath s ∈ (runMain args cwd stdin fs).err) ∧
    ∀ p ∈ filesOf fs cwd args,
      (∃ e, .processing p e ∈ (runMain args cwd stdin fs).err) ∨ .writing p ∈ (runMain args cwd stdin fs).err ∨
      ∃ fs1 s, SameShape fs fs1 ∧ processFile fs1 (cliConfig args) p = .ok s ∧
        if (switches args).inplace = true then (runMain args cwd stdin fs).fs.read p = some s
        else s ∈ texts (runMain args cwd stdin fs).out := by
  have e : runMain args cwd stdin fs = (splitArgs args).2.foldl
      (fun w s => processArg cwd (cliConfig args) (switches args) s w)
      ⟨fs, if (switches args).verbose then [.verbose] else [],
        (parseOptions (splitArgs args).1 .default ⟨false, false, false⟩).2.2, false⟩ := by
    unfold runMain
    simp only [if_neg hs]
    rfl
  rw [e] at ha ⊢
  obtain ⟨_, h⟩ := foldArgs_report (fs := fs) (splitArgs args).2 (.refl fs) ha
  refine ⟨fun s hs hd hn => h.unresolved s (List.mem_filter.2 ⟨?_, by simp [hn]⟩), h.done⟩
  exact (C22_arguments_are_split args).2.mem_iff.2 (List.mem_filter.2 ⟨hs, by simpa using hd⟩)

/-- C54. And nothing else is reported: each message about files names a path argument that cannot be resolved, a selected
file whose formatting failed with that error, or, with `-i`, a selected file that may not be written. -/
theorem C54_reports_are_failures (args : List Str) (cwd : Path) (stdin : Option Str) (fs : FS)
    (hs : (splitArgs args).2 ≠ []) (ha : (runMain args cwd stdin fs).aborted = false) (m : Msg)
    (hm : m ∈ (runMain args cwd stdin fs).err) (hf : AboutFiles m) :
    (∃ s ∈ args, s.head? ≠ some '-' ∧ getPathFiles fs (switches args).recursive (resolve cwd s) = none ∧ m = .unresolvedPath s) ∨
    ∃ p ∈ filesOf fs cwd args,
      (∃ e fs1, m = .processing p e ∧ SameShape fs fs1 ∧ processFile fs1 (cliConfig args) p = .error e) ∨
      (m = .writing p ∧ (switches args).inplace = true ∧ fs.canWrite p = false) := by
  have e : runMain args cwd stdin fs = (splitArgs args).2.foldl
      (fun w s => processArg cwd (cliConfig args) (switches args) s w)
      ⟨fs, if (switches args).verbose then [.verbose] else [],
        (parseOptions (splitArgs args).1 .default ⟨false, false, false⟩).2.2, false⟩ := by
    unfold runMain
    simp only [if_neg hs]
    rfl
  rw [e] at ha hm
  obtain ⟨_, h⟩ := foldArgs_report (fs := fs) (splitArgs args).2 (.refl fs) ha
  rcases h.only m hm with hm | ⟨s, hs, rfl⟩ | h
  · exfalso
    have hc := parseOptions_msgs (splitArgs args).1 .default ⟨false, false, false⟩
    replace hm : m ∈ (parseOptions (splitArgs args).1 .default ⟨false, false, false⟩).2.2 := hm
    clear h
    generalize (parseOptions (splitArgs args).1 .default ⟨false, false, false⟩).2.2 = ms at hc hm
    generalize (splitArgs args).1 = as at hc
    induction hc with
    | nil => cases hm
    | fine _ _ ih => exact ih hm
    | bad hb _ ih =>
      rcases List.mem_cons.1 hm with rfl | hm
      · cases hb <;> exact hf
      · exact ih hm
  · obtain ⟨h1, h2⟩ := List.mem_filter.1 hs
    have := List.mem_filter.1 ((C22_arguments_are_split args).2.mem_iff.1 h1)
    exact .inl ⟨s, this.1, by simpa using this.2, by simpa using h2, rfl⟩
  · obtain ⟨p, hp, h | h | ⟨fs1, _, h⟩⟩ := h
    · exact .inr ⟨p, hp, .inl h⟩
    · exact .inr ⟨p, hp, .inr h⟩
    · obtain ⟨_, _, n, v, _, hF⟩ := configMsgs_fault h
      cases hF <;> exact hf.elim

/-- C53 for configuration files. If no argument sets a format option, each selected file that can be read is formatted with
the settings of its configuration file, and for each of these settings that names no option, or has a value that is not
well-formed, the complaint is printed. (The texts of the files may have been changed by the same run: `fs1`.) -/
theorem C53_bad_settings_are_reported (args : List Str) (cwd : Path) (stdin : Option Str) (fs : FS)
    (hs : (splitArgs args).2 ≠ []) (ha : (runMain args cwd stdin fs).aborted = false)
    (hc : (cliConfig args).hasEmptyFormat = true) (p : Path) (hp : p ∈ filesOf fs cwd args) :
    ∃ fs1, SameShape fs fs1 ∧ ∀ text q content toks sb b, fs1.read p = some text → fileConfig fs1 p = some q →
      fs1.read q = some content → lexLua content = some toks → IsProgram (toks.map TokL.tok) sb b →
      (∀ x, b = some x → ¬ ReturnsAfter x) → ∀ s ∈ programStatements b, ∀ n v m, firstAssignment s = some (n, v) →
      Fault n v m → m ∈ (runMain args cwd stdin fs).err := by
  have e : runMain args cwd stdin fs = (splitArgs args).2.foldl
      (fun w s => processArg cwd (cliConfig args) (switches args) s w)
      ⟨fs, if (switches args).verbose then [.verbose] else [],
        (parseOptions (splitArgs args).1 .default ⟨false, false, false⟩).2.2, false⟩ := by
    unfold runMain
    simp only [if_neg hs]
    rfl
  rw [e] at ha ⊢
  obtain ⟨_, h⟩ := foldArgs_report (fs := fs) (splitArgs args).2 (.refl fs) ha
  obtain ⟨fs1, h1, h2⟩ := h.config p hp
  refine ⟨fs1, h1, fun text q content toks sb b hr hq hcn hl hP hR s hs n v m hsv hF => h2 m ?_⟩
  have hset := settings_eq content toks sb b hl hP hR
  have hfile : fs1.isFile p = true := by
    unfold FS.read at hr
    unfold FS.isFile
    split at hr <;> simp_all
  unfold configMsgs
  rw [hfile, hr, hc, hq]
  simp only [Option.isSome_some, Bool.and_self, if_true, Option.bind_some, hcn]
  cases hb : (parseLua content).bind chunkBody with
  | none => rw [hb] at hset; cases hset
  | some x =>
    rw [hb] at hset
    simp only [Option.map_some, Option.some.injEq] at hset
    simp only [hset]
    exact List.mem_filterMap.2 ⟨(n, v), List.mem_filterMap.2 ⟨s, hs, hsv⟩, (setMsg_fault _ _ _).2 hF⟩

/-- A project whose configuration file has a misspelled option and a bad value. -/
def misconfigured : FS := .dir true [
  (L!".luafmt.lua", .file (some L!"max_widht = 80\nindent_exp_list = 1\nremove_comments = true") true),
  (L!"a.lua", .file (some L!"x=1") true)]

example : (runMain [L!"a.lua"] [] none misconfigured).err =
    [.invalidName L!"max_widht", .invalidOption L!"indent_exp_list" L!"1"] := by decide +kernel

/-- C54. Without path arguments: if formatting the standard input fails, the failure is reported and nothing is printed;
if it succeeds, nothing about it is reported. -/
theorem C54_stdin_failures_are_reported (args : List Str) (h : ∀ a ∈ args, a.head? = some '-') (text : Str) (cwd : Path)
    (fs : FS) (hp : format (cliConfig args) text ≠ .panic) :
    ∃ ms rest, (runMain args cwd (some text) fs).err = ms ++ rest ∧ Complaints args ms ∧
      ((∃ e, format (cliConfig args) text = .error e ∧ rest = [.processingBuffer e] ∧
          texts (runMain args cwd (some text) fs).out = []) ∨
        ∃ s, format (cliConfig args) text = .ok s ∧ rest = [] ∧ texts (runMain args cwd (some text) fs).out = [s]) := by
  have h1 : (args.filter fun s => !isOption s) = [] := by
    rw [List.filter_eq_nil_iff]
    intro a ha
    simp [isOption, h a ha]
  have h2 : args.filter isOption = args := by
    rw [List.filter_eq_self]
    intro a ha
    simp [isOption, h a ha]
  have hs : (splitArgs args).2 = [] ∧ (splitArgs args).1 = args := by simp [splitArgs, h1, h2, sortStrs]
  have hc := parseOptions_msgs args .default ⟨false, false, false⟩
  unfold cliConfig at hp ⊢
  unfold runMain
  simp only [hs.1, hs.2, if_true] at hp ⊢
  cases hf : format (parseOptions args .default ⟨false, false, false⟩).1 text with
  | panic => exact absurd hf hp
  | error e =>
    refine ⟨_, _, rfl, hc, .inl ⟨e, rfl, rfl, ?_⟩⟩
    cases (parseOptions args .default ⟨false, false, false⟩).2.1.verbose <;> simp [texts]
  | ok s =>
    refine ⟨_, [], by simp, hc, .inr ⟨s, rfl, rfl, ?_⟩⟩
    cases (parseOptions args .default ⟨false, false, false⟩).2.1.verbose <;> simp [texts]

/-- Standard input that cannot be parsed. -/
example : format (cliConfig [L!"-v", L!"--max_width=x"]) L!"x = = 1" = .error .parsing := by decide +kernel

/-- A directory with a file that can be formatted, one that cannot be parsed and one that may not be written. -/
def failingTree : FS := .dir true [
  (L!"a.lua", .file (some L!"x=1") true),
  (L!"b.lua", .file (some L!"x=") true),
  (L!"c.lua", .file (some L!"y=2") false)]

/-- The hypotheses hold for a run with failures, and all of them are reported. -/
example : (splitArgs [L!"-i", L!"--max_width=9", L!"nowhere", L!"."]).2 ≠ [] ∧
    (runMain [L!"-i", L!"--max_width=9", L!"nowhere", L!"."] [] none failingTree).aborted = false ∧
    (runMain [L!"-i", L!"--max_width=9", L!"nowhere", L!"."] [] none failingTree).err =
      [.processing [L!"b.lua"] .parsing, .writing [L!"c.lua"], .unresolvedPath L!"nowhere"] := by decide +kernel

end Luafmt
