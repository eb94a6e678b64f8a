import Verif.Props.Files

/-
C20, C21, C23: what a run does to the files.
-/
namespace Luafmt
open Spec

/-- The switches that a command line gives. -/
def Spec.switches (args : List Str) : ProgramOpts :=
  (parseOptions (splitArgs args).1 .default ⟨false, false, false⟩).2.1

/-- The configuration that a command line gives. -/
def Spec.cliConfig (args : List Str) : Config :=
  (parseOptions (splitArgs args).1 .default ⟨false, false, false⟩).1

/-- The files that a run processes, in order. -/
def Spec.filesOf (fs : FS) (cwd : Path) (args : List Str) : List Path :=
  ((splitArgs args).2.map fun s => (getPathFiles fs (switches args).recursive (resolve cwd s)).getD []).flatten

/-! ### One step -/

/-- The text formatted for a file if it is written in place. -/
def writes (c : Config) (o : ProgramOpts) (p : Path) (fs : FS) : Option Str :=
  match processFile fs c p with
  | .ok s => if o.inplace = true ∧ fs.canWrite p = true then some s else none
  | _ => none

/-- What is printed for a file. -/
def prints (c : Config) (o : ProgramOpts) (p : Path) (fs : FS) : List Str :=
  match processFile fs c p with
  | .ok s => if o.inplace = true then [] else [s]
  | _ => []

/-- The texts among the prints. -/
def texts (l : List Print) : List Str := l.filterMap fun
  | .text s => some s
  | .verbose => none

theorem texts_append (a b : List Print) : texts (a ++ b) = texts a ++ texts b := List.filterMap_append

theorem texts_notes (b : Bool) : texts (if b then [Print.verbose] else []) = [] := by cases b <;> rfl

theorem processPath_fs (c : Config) (o : ProgramOpts) (p : Path) (w : World) :
    (processPath c o p w).fs =
      if w.aborted then w.fs else match writes c o p w.fs with
        | some s => w.fs.setText s p
        | none => w.fs := by
  unfold processPath writes
  by_cases ha : w.aborted = true
  · simp [ha]
  · simp only [ha]
    cases hp : processFile w.fs c p with
    | panic => simp
    | error e => simp
    | ok s =>
      by_cases hi : o.inplace = true
      · by_cases hc : w.fs.canWrite p = true <;> simp [hi, hc]
      · simp [hi]

theorem processPath_out (c : Config) (o : ProgramOpts) (p : Path) (w : World) (ha : w.aborted = false) :
    texts (processPath c o p w).out = texts w.out ++ prints c o p w.fs := by
  unfold processPath prints
  simp only [ha]
  cases hp : processFile w.fs c p with
  | panic => simp [texts_append, texts_notes]
  | error e => simp [texts_append, texts_notes]
  | ok s =>
    by_cases hi : o.inplace = true
    · by_cases hc : w.fs.canWrite p = true <;> simp [hi, hc, texts_append, texts_notes]
    · simp [hi, texts_append, texts_notes]; rfl

theorem processPath_aborted (c : Config) (o : ProgramOpts) (p : Path) (w : World) (ha : w.aborted = false) :
    (processPath c o p w).aborted = true ↔ processFile w.fs c p = .panic := by
  unfold processPath
  simp only [ha]
  cases hp : processFile w.fs c p with
  | panic => simp
  | error e => simp
  | ok s =>
    by_cases hi : o.inplace = true
    · by_cases hc : w.fs.canWrite p = true <;> simp [hi, hc]
    · simp [hi]

theorem processPath_id_of_aborted (c : Config) (o : ProgramOpts) (p : Path) (w : World)
    (ha : w.aborted = true) : processPath c o p w = w := by
  simp [processPath, ha]

theorem writes_isFile {c : Config} {o : ProgramOpts} {p : Path} {fs : FS} {s : Str}
    (h : writes c o p fs = some s) : fs.isFile p = true ∧ o.inplace = true ∧ processFile fs c p = .ok s := by
  unfold writes at h
  cases hp : processFile fs c p with
  | panic => rw [hp] at h; cases h
  | error e => rw [hp] at h; cases h
  | ok t =>
    rw [hp] at h
    simp only at h
    by_cases hc : o.inplace = true ∧ fs.canWrite p = true
    · rw [if_pos hc] at h
      cases h
      refine ⟨?_, hc.1, rfl⟩
      unfold processFile at hp
      by_cases hf : fs.isFile p = true
      · exact hf
      · simp [hf] at hp
    · rw [if_neg hc] at h; cases h

/-- C20. Processing one file leaves every other file alone, and the file itself unless `-i` is given, its
formatting succeeded and it may be written; then it holds exactly the formatted text. -/
theorem C20_one_file (c : Config) (o : ProgramOpts) (p : Path) (w : World) (ha : w.aborted = false) :
    (∀ q, q ≠ p → (processPath c o p w).fs.read q = w.fs.read q) ∧
    (∀ s, processFile w.fs c p = .ok s → o.inplace = true → w.fs.canWrite p = true →
      (processPath c o p w).fs.read p = some s) ∧
    ((o.inplace = false ∨ w.fs.canWrite p = false ∨ ∀ s, processFile w.fs c p ≠ .ok s) →
      (processPath c o p w).fs.read p = w.fs.read p) := by
  have hfs := processPath_fs c o p w
  simp only [ha] at hfs
  refine ⟨?_, ?_, ?_⟩
  · intro q hq
    rw [hfs]
    cases hw : writes c o p w.fs with
    | none => rfl
    | some s => exact read_setText_ne s p q w.fs hq
  · intro s hs hi hc
    have hw : writes c o p w.fs = some s := by simp [writes, hs, hi, hc]
    rw [hfs, hw]
    exact read_setText_same s p w.fs (writes_isFile hw).1
  · intro h
    have hw : writes c o p w.fs = none := by
      unfold writes
      cases hp : processFile w.fs c p with
      | panic => rfl
      | error e => rfl
      | ok s =>
        simp only
        rcases h with h | h | h
        · simp [h]
        · simp [h]
        · exact absurd hp (h s)
    rw [hfs, hw]
    rfl

/-! ### Whole runs -/

/-- Two file systems with the same names and kinds, that differ in contents only. -/
structure SameShape (fs fs' : FS) : Prop where
  isFile : ∀ q, fs'.isFile q = fs.isFile q
  canWrite : ∀ q, fs'.canWrite q = fs.canWrite q
  config : ∀ q, fileConfig fs' q = fileConfig fs q
  listing : ∀ rec q, getPathFiles fs' rec q = getPathFiles fs rec q

theorem SameShape.refl (fs : FS) : SameShape fs fs := ⟨fun _ => rfl, fun _ => rfl, fun _ => rfl, fun _ _ => rfl⟩

theorem SameShape.trans {a b c : FS} (h : SameShape a b) (h' : SameShape b c) : SameShape a c :=
  ⟨fun q => (h'.isFile q).trans (h.isFile q), fun q => (h'.canWrite q).trans (h.canWrite q),
    fun q => (h'.config q).trans (h.config q), fun r q => (h'.listing r q).trans (h.listing r q)⟩

theorem SameShape.setText (fs : FS) (s : Str) (p : Path) : SameShape fs (fs.setText s p) :=
  ⟨fun q => isFile_setText s p q fs, fun q => canWrite_setText s p q fs,
    fun q => fileConfig_setText s p q fs, fun r q => getPathFiles_setText r s p q fs⟩

theorem processPath_shape (c : Config) (o : ProgramOpts) (p : Path) (w : World) :
    SameShape w.fs (processPath c o p w).fs := by
  rw [processPath_fs]
  split
  · exact .refl _
  · split
    · exact .setText _ _ _
    · exact .refl _

theorem foldPaths_shape (c : Config) (o : ProgramOpts) (ps : List Path) (w : World) :
    SameShape w.fs (ps.foldl (fun w p => processPath c o p w) w).fs := by
  induction ps generalizing w with
  | nil => exact .refl _
  | cons p ps ih => exact (processPath_shape c o p w).trans (ih _)

theorem processArg_shape (cwd : Path) (c : Config) (o : ProgramOpts) (s : Str) (w : World) :
    SameShape w.fs (processArg cwd c o s w).fs := by
  unfold processArg
  split
  · exact .refl _
  · split
    · exact foldPaths_shape c o _ w
    · exact .refl _

theorem foldArgs_shape (cwd : Path) (c : Config) (o : ProgramOpts) (ss : List Str) (w : World) :
    SameShape w.fs (ss.foldl (fun w s => processArg cwd c o s w) w).fs := by
  induction ss generalizing w with
  | nil => exact .refl _
  | cons s ss ih => exact (processArg_shape cwd c o s w).trans (ih _)

/-- The run over all source arguments is the run over all their files (messages aside). -/
theorem foldArgs_eq (cwd : Path) (c : Config) (o : ProgramOpts) (ss : List Str) : ∀ (w v : World),
    w.fs = v.fs → w.out = v.out → w.aborted = v.aborted →
    let r := ss.foldl (fun w s => processArg cwd c o s w) w
    let r' := ((ss.map fun s => (getPathFiles w.fs o.recursive (resolve cwd s)).getD []).flatten).foldl
      (fun w p => processPath c o p w) v
    r.fs = r'.fs ∧ r.out = r'.out ∧ r.aborted = r'.aborted := by
  have congrP : ∀ (p : Path) (w v : World), w.fs = v.fs → w.out = v.out → w.aborted = v.aborted →
      (processPath c o p w).fs = (processPath c o p v).fs ∧
      (processPath c o p w).out = (processPath c o p v).out ∧
      (processPath c o p w).aborted = (processPath c o p v).aborted := by
    intro p w v h1 h2 h3
    unfold processPath
    rw [h3, h1, h2]
    split
    · exact ⟨h1, h2, h3⟩
    · cases processFile v.fs c p with
      | panic => exact ⟨rfl, rfl, rfl⟩
      | error e => exact ⟨rfl, rfl, rfl⟩
      | ok s =>
        simp only
        split
        · split
          · exact ⟨rfl, rfl, rfl⟩
          · exact ⟨rfl, rfl, rfl⟩
        · exact ⟨rfl, rfl, rfl⟩
  have congrF : ∀ (ps : List Path) (w v : World), w.fs = v.fs → w.out = v.out → w.aborted = v.aborted →
      (ps.foldl (fun w p => processPath c o p w) w).fs = (ps.foldl (fun w p => processPath c o p w) v).fs ∧
      (ps.foldl (fun w p => processPath c o p w) w).out = (ps.foldl (fun w p => processPath c o p w) v).out ∧
      (ps.foldl (fun w p => processPath c o p w) w).aborted =
        (ps.foldl (fun w p => processPath c o p w) v).aborted := by
    intro ps
    induction ps with
    | nil => intro w v h1 h2 h3; exact ⟨h1, h2, h3⟩
    | cons p ps ih =>
      intro w v h1 h2 h3
      obtain ⟨a, b, d⟩ := congrP p w v h1 h2 h3
      exact ih _ _ a b d
  have foldAborted : ∀ (ps : List Path) (w : World), w.aborted = true →
      ps.foldl (fun w p => processPath c o p w) w = w := by
    intro ps
    induction ps with
    | nil => intro w _; rfl
    | cons p ps ih =>
      intro w h
      simp only [List.foldl_cons, processPath_id_of_aborted c o p w h]
      exact ih w h
  induction ss with
  | nil => intro w v h1 h2 h3; exact ⟨h1, h2, h3⟩
  | cons s ss ih =>
    intro w v h1 h2 h3
    simp only [List.foldl_cons, List.map_cons, List.flatten_cons, List.foldl_append]
    have hshape := processArg_shape cwd c o s w
    have key : (processArg cwd c o s w).fs =
          (((getPathFiles w.fs o.recursive (resolve cwd s)).getD []).foldl
            (fun w p => processPath c o p w) v).fs ∧
        (processArg cwd c o s w).out =
          (((getPathFiles w.fs o.recursive (resolve cwd s)).getD []).foldl
            (fun w p => processPath c o p w) v).out ∧
        (processArg cwd c o s w).aborted =
          (((getPathFiles w.fs o.recursive (resolve cwd s)).getD []).foldl
            (fun w p => processPath c o p w) v).aborted := by
      unfold processArg
      by_cases ha : w.aborted = true
      · rw [if_pos ha, foldAborted _ v (h3 ▸ ha)]
        exact ⟨h1, h2, h3⟩
      · rw [if_neg ha]
        cases getPathFiles w.fs o.recursive (resolve cwd s) with
        | none => exact ⟨h1, h2, h3⟩
        | some ps => exact congrF ps w v h1 h2 h3
    have := ih _ _ key.1 key.2.1 key.2.2
    simp only [hshape.listing] at this
    exact this

theorem runMain_eq (args : List Str) (cwd : Path) (stdin : Option Str) (fs : FS)
    (hs : (splitArgs args).2 ≠ []) :
    ∃ v : World, v.fs = fs ∧ texts v.out = [] ∧ v.aborted = false ∧
      let r' := (filesOf fs cwd args).foldl
        (fun w p => processPath (cliConfig args) (switches args) p w) v
      (runMain args cwd stdin fs).fs = r'.fs ∧ (runMain args cwd stdin fs).out = r'.out ∧
      (runMain args cwd stdin fs).aborted = r'.aborted := by
  refine ⟨⟨fs, if (switches args).verbose then [.verbose] else [],
    (parseOptions (splitArgs args).1 .default ⟨false, false, false⟩).2.2, false⟩, rfl, texts_notes _, rfl, ?_⟩
  have := foldArgs_eq cwd (cliConfig args) (switches args) (splitArgs args).2
    ⟨fs, if (switches args).verbose then [.verbose] else [],
      (parseOptions (splitArgs args).1 .default ⟨false, false, false⟩).2.2, false⟩ _ rfl rfl rfl
  have e : runMain args cwd stdin fs = (splitArgs args).2.foldl
      (fun w s => processArg cwd (cliConfig args) (switches args) s w)
      ⟨fs, if (switches args).verbose then [.verbose] else [],
        (parseOptions (splitArgs args).1 .default ⟨false, false, false⟩).2.2, false⟩ := by
    unfold runMain
    simp only [if_neg hs]
    rfl
  rw [e]
  exact this

/-- C20. After any run, every file either has its old content, or `-i` was given, the file was selected,
and it holds the text that formatting it returned at that moment. -/
theorem C20_whole_run (args : List Str) (cwd : Path) (stdin : Option Str) (fs : FS) (q : Path) :
    (runMain args cwd stdin fs).fs.read q = fs.read q ∨
    ((switches args).inplace = true ∧ q ∈ filesOf fs cwd args ∧
      ∃ fs1 s, SameShape fs fs1 ∧ processFile fs1 (cliConfig args) q = .ok s ∧
        (runMain args cwd stdin fs).fs.read q = some s) := by
  by_cases hs : (splitArgs args).2 = []
  · left
    unfold runMain
    simp only [hs, if_true]
    cases stdin with
    | none => rfl
    | some text =>
      simp only
      split <;> rfl
  · obtain ⟨v, hv, _, _, he, _, _⟩ := runMain_eq args cwd stdin fs hs
    rw [he]
    have main : ∀ (ps : List Path) (v : World),
        (ps.foldl (fun w p => processPath (cliConfig args) (switches args) p w) v).fs.read q = v.fs.read q ∨
        ((switches args).inplace = true ∧ q ∈ ps ∧ ∃ fs1 s, SameShape v.fs fs1 ∧
          processFile fs1 (cliConfig args) q = .ok s ∧
          (ps.foldl (fun w p => processPath (cliConfig args) (switches args) p w) v).fs.read q = some s) := by
      intro ps
      induction ps with
      | nil => intro v; exact Or.inl rfl
      | cons p ps ih =>
        intro v
        simp only [List.foldl_cons]
        rcases ih (processPath (cliConfig args) (switches args) p v) with h | ⟨h1, h2, fs1, s, h3, h4, h5⟩
        · rw [h, processPath_fs]
          split
          · exact Or.inl rfl
          · cases hw : writes (cliConfig args) (switches args) p v.fs with
            | none => exact Or.inl rfl
            | some s =>
              by_cases hq : q = p
              · subst hq
                obtain ⟨w1, w2, w3⟩ := writes_isFile hw
                exact Or.inr ⟨w2, by simp, v.fs, s, .refl _, w3, read_setText_same s q v.fs w1⟩
              · exact Or.inl (read_setText_ne s p q v.fs hq)
        · exact Or.inr ⟨h1, by simp [h2], fs1, s, (processPath_shape _ _ _ _).trans h3, h4, h5⟩
    rcases main (filesOf fs cwd args) v with h | ⟨h1, h2, fs1, s, h3, h4, h5⟩
    · left; rw [h, hv]
    · right; exact ⟨h1, h2, fs1, s, hv ▸ h3, h4, h5⟩

/-- C20. No run creates or removes files. -/
theorem C20_no_file_appears_or_vanishes (args : List Str) (cwd : Path) (stdin : Option Str) (fs : FS) (q : Path) :
    (runMain args cwd stdin fs).fs.isFile q = fs.isFile q := by
  by_cases hs : (splitArgs args).2 = []
  · unfold runMain
    simp only [hs, if_true]
    cases stdin with
    | none => rfl
    | some text =>
      simp only
      split <;> rfl
  · obtain ⟨v, hv, _, _, he, _, _⟩ := runMain_eq args cwd stdin fs hs
    rw [he, (foldPaths_shape _ _ _ v).isFile, hv]

/-- C21. If the selected files are distinct, formatting none of them panics, and none of them is a
configuration file for another one, then after the run each file holds what it would hold if it had been
processed alone (`writes` and `prints` look at the initial file system), the printed texts are those of
the single runs in order, and all other files are unchanged. -/
theorem C21_files_are_independent (args : List Str) (cwd : Path) (stdin : Option Str) (fs : FS)
    (hs : (splitArgs args).2 ≠ [])
    (hd : (filesOf fs cwd args).Nodup)
    (hp : ∀ p ∈ filesOf fs cwd args, processFile fs (cliConfig args) p ≠ .panic)
    (hc : (cliConfig args).hasEmptyFormat = true →
      ∀ p ∈ filesOf fs cwd args, ∀ q ∈ filesOf fs cwd args, fileConfig fs p ≠ some q) :
    (runMain args cwd stdin fs).aborted = false ∧
    (∀ p ∈ filesOf fs cwd args, (runMain args cwd stdin fs).fs.read p =
      (processPath (cliConfig args) (switches args) p ⟨fs, [], [], false⟩).fs.read p) ∧
    (∀ q, q ∉ filesOf fs cwd args → (runMain args cwd stdin fs).fs.read q = fs.read q) ∧
    texts (runMain args cwd stdin fs).out = ((filesOf fs cwd args).map fun p =>
      texts (processPath (cliConfig args) (switches args) p ⟨fs, [], [], false⟩).out).flatten := by
  obtain ⟨v, hv, ho, ha, e1, e2, e3⟩ := runMain_eq args cwd stdin fs hs
  rw [e1, e2, e3]
  generalize cliConfig args = c at *
  generalize switches args = o at *
  have main : ∀ (ps : List Path) (v : World), v.aborted = false → ps.Nodup →
      (∀ p ∈ ps, processFile v.fs c p = processFile fs c p) → (∀ p ∈ ps, v.fs.canWrite p = fs.canWrite p) →
      (∀ p ∈ ps, v.fs.read p = fs.read p) →
      (∀ q, fileConfig v.fs q = fileConfig fs q) →
      (∀ p ∈ ps, processFile fs c p ≠ .panic) →
      (c.hasEmptyFormat = true → ∀ p ∈ ps, ∀ q ∈ ps, fileConfig fs p ≠ some q) →
      let r := ps.foldl (fun w p => processPath c o p w) v
      r.aborted = false ∧
      (∀ p ∈ ps, r.fs.read p = (processPath c o p ⟨fs, [], [], false⟩).fs.read p) ∧
      (∀ q, q ∉ ps → r.fs.read q = v.fs.read q) ∧
      texts r.out = texts v.out ++ (ps.map fun p => prints c o p fs).flatten := by
    intro ps
    induction ps with
    | nil =>
      intro v ha _ _ _ _ _ _ _
      exact ⟨ha, fun p hp => (by cases hp), fun _ _ => rfl, by simp⟩
    | cons p ps ih =>
      intro v ha hnd h1 h2 h2' h3 h4 h5
      have hnd' := List.nodup_cons.1 hnd
      have hw : writes c o p v.fs = writes c o p fs := by
        unfold writes
        rw [h1 p (by simp), h2 p (by simp)]
      have hpr : prints c o p v.fs = prints c o p fs := by
        unfold prints
        rw [h1 p (by simp)]
      have hab : (processPath c o p v).aborted = false := by
        have := processPath_aborted c o p v ha
        rw [h1 p (by simp)] at this
        cases hx : (processPath c o p v).aborted with
        | false => rfl
        | true => exact absurd (this.1 hx) (h4 p (by simp))
      have hfs : (processPath c o p v).fs = match writes c o p fs with
          | some s => v.fs.setText s p
          | none => v.fs := by
        rw [processPath_fs, hw]; simp [ha]
      have hstep : ∀ q ∈ ps, processFile (processPath c o p v).fs c q = processFile fs c q := by
        intro q hq
        rw [hfs]
        cases writes c o p fs with
        | none => exact h1 q (by simp [hq])
        | some s =>
          rw [processFile_setText s p q v.fs c (fun e => hnd'.1 (e ▸ hq))]
          · exact h1 q (by simp [hq])
          · intro he
            rw [h3]
            exact h5 he q (by simp [hq]) p (by simp)
      have hother : ∀ q, q ≠ p → (processPath c o p v).fs.read q = v.fs.read q :=
        (C20_one_file c o p v ha).1
      obtain ⟨r1, r2, r3, r4⟩ := ih (processPath c o p v) hab hnd'.2 hstep
        (fun q hq => by rw [(processPath_shape c o p v).canWrite]; exact h2 q (by simp [hq]))
        (fun q hq => by
          rw [hother q (fun e => hnd'.1 (e ▸ hq))]; exact h2' q (by simp [hq]))
        (fun q => by rw [(processPath_shape c o p v).config]; exact h3 q)
        (fun q hq => h4 q (by simp [hq]))
        (fun he a ha b hb => h5 he a (by simp [ha]) b (by simp [hb]))
      refine ⟨r1, ?_, ?_, ?_⟩
      · intro q hq
        rcases List.mem_cons.1 hq with rfl | hq
        · simp only [List.foldl_cons]
          rw [r3 q hnd'.1, hfs]
          have e : (processPath c o q ⟨fs, [], [], false⟩).fs = match writes c o q fs with
              | some s => fs.setText s q
              | none => fs := by
            rw [processPath_fs]; simp
          rw [e]
          cases hwr : writes c o q fs with
          | none => exact h2' q (by simp)
          | some s =>
            simp only
            have hf := (writes_isFile hwr).1
            have hf' : v.fs.isFile q = true := (writes_isFile (hw.trans hwr)).1
            rw [read_setText_same s q v.fs hf', read_setText_same s q fs hf]
        · exact r2 q hq
      · intro q hq
        have hq' : q ≠ p ∧ q ∉ ps := by simpa using hq
        simp only [List.foldl_cons]
        rw [r3 q hq'.2, hother q hq'.1]
      · simp only [List.foldl_cons, List.map_cons, List.flatten_cons]
        rw [r4, processPath_out c o p v ha, hpr, List.append_assoc]
  obtain ⟨r1, r2, r3, r4⟩ := main (filesOf fs cwd args) v ha hd (fun p _ => by rw [hv]) (fun p _ => by rw [hv])
    (fun p _ => by rw [hv]) (fun q => by rw [hv]) hp hc
  refine ⟨r1, r2, fun q hq => (r3 q hq).trans (by rw [hv]), ?_⟩
  rw [r4, ho]
  simp only [List.nil_append]
  congr 1
  apply List.map_congr_left
  intro p _
  rw [processPath_out c o p _ rfl]
  rfl

/-- Two files in a directory with a configuration file, `luafmt -i .`. -/
example :
    let fs : FS := .dir true [
      (L!"a.lua", .file (some L!"x=1") true), (L!"b.lua", .file (some L!"y  =  2 --c") true),
      (L!".luafmt.lua", .file (some L!"remove_comments = true") true)]
    let args : List Str := [L!"-i", L!"."]
    (splitArgs args).2 ≠ [] ∧ filesOf fs [] args = [[L!"a.lua"], [L!"b.lua"]] ∧
    (cliConfig args).hasEmptyFormat = true ∧
    fileConfig fs [L!"a.lua"] = some [L!".luafmt.lua"] ∧ fileConfig fs [L!"b.lua"] = some [L!".luafmt.lua"] ∧
    processFile fs (cliConfig args) [L!"a.lua"] = .ok L!"x=1" ∧
    processFile fs (cliConfig args) [L!"b.lua"] = .ok L!"y  =  2 \n" ∧
    (runMain args [] none fs).fs.read [L!"b.lua"] = some L!"y  =  2 \n" := by
  decide +kernel

/-! ### C23 -/

/-- C23 is false of the code: the file is truncated before it is written. A crash right after that
leaves a file that has neither its old nor its new content. -/
theorem C23_crash_loses_the_file : ∃ (fs : FS) (c : Config) (p : Path) (new : Str) (fs1 : FS),
    processFile fs c p = .ok new ∧ fs1 ∈ fs.writeStates p new ∧
    fs1.read p ≠ fs.read p ∧ fs1.read p ≠ some new := by
  refine ⟨.dir true [(L!"a.lua", .file (some L!"x=1") true)],
    Config.default.set L!"write_newline_at_eof" L!"true", [L!"a.lua"], L!"x=1\n",
    (FS.dir true [(L!"a.lua", .file (some L!"x=1") true)]).setText [] [L!"a.lua"], by decide +kernel, ?_,
    by decide +kernel, by decide +kernel⟩
  refine List.mem_cons_of_mem _ (List.mem_map.2 ⟨0, by simp, rfl⟩)

/-- C23 (partial: a crash may leave a prefix of the new text instead of the whole). At each moment of
writing one file, that file has its old content or a prefix of its new content, and every other file is
as before. -/
theorem C23_crash_partial (fs : FS) (p : Path) (new : Str) (hf : fs.isFile p = true) (fs1 : FS)
    (h : fs1 ∈ fs.writeStates p new) :
    (∀ q, q ≠ p → fs1.read q = fs.read q) ∧
    (fs1.read p = fs.read p ∨ ∃ t, t <+: new ∧ fs1.read p = some t) := by
  rcases List.mem_cons.1 h with rfl | h
  · exact ⟨fun _ _ => rfl, Or.inl rfl⟩
  · obtain ⟨i, _, rfl⟩ := List.mem_map.1 h
    exact ⟨fun q hq => read_setText_ne _ p q fs hq,
      Or.inr ⟨_, List.take_prefix i new, read_setText_same _ p fs hf⟩⟩

example : (FS.dir true [(L!"a.lua", .file (some L!"x=1") true)]).isFile [L!"a.lua"] = true := by decide +kernel

end Luafmt
