import Verif.Props.Runs
import Verif.Props.Program

/-
C51: what an in-place run does to the programs of a project.
-/
namespace Luafmt
open Spec

/-- The configuration that a file is formatted with: that of the command line if it sets a formatting option, and
otherwise that of the nearest configuration file. -/
def Spec.configFor (fs : FS) (c : Config) (p : Path) : Option Config :=
  if c.hasEmptyFormat then ((fileConfig fs p).bind fs.read).bind c.reload else some c

/-- The conditions of C03 for one file. -/
def Spec.FileSafe (c : Config) (src : Str) : Prop :=
  BlankHints c ∧ RangeSafe c src ∧ ∀ toks, toksOf src = some (toks ++ [.eof]) → KeepsApart c toks

theorem processFile_ok {fs : FS} {c : Config} {p : Path} {s : Str} (h : processFile fs c p = .ok s) :
    ∃ src d, fs.read p = some src ∧ configFor fs c p = some d ∧ format d src = .ok s := by
  unfold processFile at h
  unfold configFor
  split at h
  · cases h
  · cases hr : fs.read p with
    | none => rw [hr] at h; cases h
    | some src =>
      rw [hr] at h
      simp only at h
      split at h
      · rename_i he
        rw [if_pos he]
        cases hq : fileConfig fs p with
        | none => rw [hq] at h; cases h
        | some q =>
          rw [hq] at h
          simp only at h
          cases hc : fs.read q with
          | none => rw [hc] at h; cases h
          | some content =>
            rw [hc] at h
            simp only at h
            cases hl : c.reload content with
            | none => rw [hl] at h; cases h
            | some d =>
              rw [hl] at h
              exact ⟨src, d, rfl, by simp [hc, hl], h⟩
      · rename_i he
        rw [if_neg he]
        exact ⟨src, c, rfl, rfl, h⟩

theorem foldPaths_alone (c : Config) (o : ProgramOpts) (fs : FS) (q : Path) : ∀ (ps : List Path) (v : World), ps.Nodup →
    (∀ p ∈ ps, processFile v.fs c p = processFile fs c p) →
    (c.hasEmptyFormat = true → ∀ p ∈ ps, ∀ r ∈ ps, fileConfig v.fs p ≠ some r) →
    (ps.foldl (fun w p => processPath c o p w) v).fs.read q = v.fs.read q ∨
    ∃ s, processFile fs c q = .ok s ∧ (ps.foldl (fun w p => processPath c o p w) v).fs.read q = some s := by
  intro ps
  induction ps with
  | nil => intro v _ _ _; exact .inl rfl
  | cons p ps ih =>
    intro v hn h1 h2
    have hn' := List.nodup_cons.1 hn
    simp only [List.foldl_cons]
    rcases ih (processPath c o p v) hn'.2 (by
        intro r hr
        rw [processPath_fs]
        split
        · exact h1 r (by simp [hr])
        · split
          · rename_i s _
            rw [processFile_setText s p r v.fs c (fun e => hn'.1 (e ▸ hr))]
            · exact h1 r (by simp [hr])
            · exact fun he => h2 he r (by simp [hr]) p (by simp)
          · exact h1 r (by simp [hr]))
        (fun he a ha b hb => by
          rw [(processPath_shape c o p v).config]
          exact h2 he a (by simp [ha]) b (by simp [hb])) with h | h
    · rw [h, processPath_fs]
      split
      · exact .inl rfl
      · cases hw : writes c o p v.fs with
        | none => exact .inl rfl
        | some s =>
          by_cases hq : q = p
          · subst hq
            obtain ⟨w1, _, w3⟩ := writes_isFile hw
            exact .inr ⟨s, (h1 q (by simp)).symm.trans w3, read_setText_same s q v.fs w1⟩
          · exact .inl (read_setText_ne s p q v.fs hq)
    · exact .inr h

/-- C51 for projects whose files meet the conditions of C03, none of which is selected twice or is a configuration file
of another one. After any run, whether it ended or was stopped by a panic, each file holds its old text or a text that
is accepted and is the same program. Missing from the full claim: the configurations and sources for which C03 does not
hold, files that are named twice (then they are formatted twice), and files that are configuration files of others. -/
theorem C51_run_keeps_programs_partial (args : List Str) (cwd : Path) (stdin : Option Str) (fs : FS)
    (hd : (filesOf fs cwd args).Nodup)
    (hc : (cliConfig args).hasEmptyFormat = true →
      ∀ p ∈ filesOf fs cwd args, ∀ q ∈ filesOf fs cwd args, fileConfig fs p ≠ some q)
    (hs : ∀ p ∈ filesOf fs cwd args, ∀ c src, configFor fs (cliConfig args) p = some c → fs.read p = some src →
      FileSafe c src) (q : Path) :
    (runMain args cwd stdin fs).fs.read q = fs.read q ∨
    ∃ c src src' tree tree', q ∈ filesOf fs cwd args ∧ configFor fs (cliConfig args) q = some c ∧
      fs.read q = some src ∧ (runMain args cwd stdin fs).fs.read q = some src' ∧
      parseLua src = some tree ∧ parseLua src' = some tree' ∧ SameProgram c tree tree' := by
  rcases C20_whole_run args cwd stdin fs q with h | ⟨_, hq, _⟩
  · exact .inl h
  · by_cases hn : (splitArgs args).2 = []
    · rw [filesOf, hn] at hq
      cases hq
    · obtain ⟨v, hv, _, _, he, _, _⟩ := runMain_eq args cwd stdin fs hn
      rw [he]
      rcases foldPaths_alone (cliConfig args) (switches args) fs q (filesOf fs cwd args) v hd
        (fun p _ => by rw [hv]) (by rw [hv]; exact hc) with h | ⟨s, h1, h2⟩
      · left; rw [h, hv]
      · right
        obtain ⟨src, c, h3, h4, h5⟩ := processFile_ok h1
        obtain ⟨b1, b2, b3⟩ := hs q hq c src h4 h3
        obtain ⟨toks, ht⟩ : ∃ toks, toksOf src = some (toks ++ [.eof]) := by
          obtain ⟨_, ts, e, os, es, es', _, l1, l2, _, _, l3, _⟩ := format_elems b1 b2 h5
          exact ⟨tokensOf es, by rw [toksOf, l1]; simp [l2, l3]⟩
        obtain ⟨tree, tree', t1, t2, t3⟩ := C03_same_program_partial c src s toks b1 b2 h5 ht (b3 toks ht)
        exact ⟨c, src, s, tree, tree', hq, h4, h3, h2, t1, t2, t3⟩

/-- A project with a program in each of two directories, one of which may not be written, and a text file. -/
def Spec.project : FS := .dir true [
  (L!"a.lua", .file (some L!"local a  = 'x' --one\nf ( a )") true),
  (L!"notes.txt", .file (some L!"x") true),
  (L!"sub", .dir true [(L!"b.lua", .file (some L!"t = {1,\n 2}\n") true), (L!"c.lua", .file (some L!"t=1") false)])]

/-- A run over it. -/
def Spec.projectArgs : List Str := [L!"-i", L!"-r", L!"--convert_charstring_to_normalstring=true",
  L!"--newline_format_function=1", L!"--write_newline_at_eof=true", L!"."]

example : (filesOf project [] projectArgs).Nodup ∧
    ((cliConfig projectArgs).hasEmptyFormat = true →
      ∀ p ∈ filesOf project [] projectArgs, ∀ q ∈ filesOf project [] projectArgs, fileConfig project p ≠ some q) ∧
    (∀ p ∈ filesOf project [] projectArgs, ∀ c src, configFor project (cliConfig projectArgs) p = some c →
      project.read p = some src → FileSafe c src) := by
  have hf : filesOf project [] projectArgs = [[L!"a.lua"], [L!"sub", L!"b.lua"], [L!"sub", L!"c.lua"]] := by
    decide +kernel
  have hd : (cliConfig projectArgs).hasEmptyFormat = false := by decide +kernel
  refine ⟨by rw [hf]; decide, by simp [hd], ?_⟩
  intro p hp c src hc hr
  simp only [configFor, hd, Bool.false_eq_true, if_false, Option.some.injEq] at hc
  subst hc
  have key : ∀ s, s ∈ [L!"local a  = 'x' --one\nf ( a )", L!"t = {1,\n 2}\n", L!"t=1"] → FileSafe (cliConfig projectArgs) s := by
    intro s hs
    refine ⟨by constructor <;> simp +decide [projectArgs], .inl (by decide +kernel), fun toks ht => ?_⟩
    have ht' : toks = body s := by simp [body, ht]
    subst ht'
    simp only [List.mem_cons, List.not_mem_nil, or_false] at hs
    rcases hs with rfl | rfl | rfl <;> exact keepsApart_of (by decide +kernel) (.inl (by decide +kernel))
  rw [hf] at hp
  simp only [List.mem_cons, List.not_mem_nil, or_false] at hp
  apply key
  rcases hp with rfl | rfl | rfl <;> cases hr <;> simp

/-- The run rewrites two of the files. -/
example : (runMain projectArgs [] none project).fs.read [L!"a.lua"] = some L!"local a  = \"x\" --one\nf ( a )\n" ∧
    (runMain projectArgs [] none project).fs.read [L!"sub", L!"c.lua"] = some L!"t=1" := by decide +kernel

/-- The full claim C51 fails: removing blanks without hints makes an in-place run destroy a program. -/
theorem C51_fails_without_hints : ∃ fs : FS, ∃ q,
    fs.read q = some L!"local a" ∧ (parseLua L!"local a").isSome ∧
    (runMain [L!"-i", L!"--remove_spaces_between_tokens=true", L!"."] [] none fs).fs.read q = some L!"locala" ∧
    parseLua L!"locala" = none :=
  ⟨.dir true [(L!"a.lua", .file (some L!"local a") true)], [L!"a.lua"], by decide +kernel, by decide +kernel,
    by decide +kernel, by decide +kernel⟩

end Luafmt
