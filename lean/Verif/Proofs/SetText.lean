import Verif.Proofs.Files

/-
Replacing the content of one file leaves everything else of a directory tree as it was.
-/
namespace Luafmt
open Spec

theorem setText_nil (s : Str) (fs : FS) : FS.setText s [] fs = match fs with
    | .file _ w => .file (some s) w
    | x => x := by
  cases fs <;> simp [FS.setText]

theorem setText_cons (s : Str) (n : Name) (p : Path) (fs : FS) : FS.setText s (n :: p) fs = match fs with
    | .dir r es => .dir r (FS.setEntry s n p es)
    | x => x := by
  cases fs <;> simp [FS.setText]

theorem lookup_setEntry_same (s : Str) (n : Name) (p : Path) (es : List (Name × FS)) :
    (FS.setEntry s n p es).lookup n = (es.lookup n).map (FS.setText s p) := by
  induction es with
  | nil => rfl
  | cons x es ih =>
    obtain ⟨m, e⟩ := x
    simp only [FS.setEntry]
    by_cases h : m = n
    · subst h; rw [if_pos rfl, lookup_cons_eq, lookup_cons_eq]; rfl
    · rw [if_neg h, lookup_cons_ne (Ne.symm h), lookup_cons_ne (Ne.symm h), ih]

theorem lookup_setEntry_ne (s : Str) (n m : Name) (p : Path) (es : List (Name × FS)) (h : m ≠ n) :
    (FS.setEntry s n p es).lookup m = es.lookup m := by
  induction es with
  | nil => rfl
  | cons x es ih =>
    obtain ⟨k, e⟩ := x
    simp only [FS.setEntry]
    by_cases hk : k = n
    · subst hk; rw [if_pos rfl, lookup_cons_ne h, lookup_cons_ne h]
    · rw [if_neg hk]
      by_cases hm : m = k
      · subst hm; rw [lookup_cons_eq, lookup_cons_eq]
      · rw [lookup_cons_ne hm, lookup_cons_ne hm, ih]

/-- At a prefix of the changed path. -/
theorem get_setText_prefix (s : Str) (q r : Path) : ∀ fs : FS,
    (FS.setText s (q ++ r) fs).get q = (fs.get q).map (FS.setText s r) := by
  induction q with
  | nil => intro fs; rfl
  | cons n q ih =>
    intro fs
    rw [List.cons_append, setText_cons]
    cases fs with
    | file t w => rfl
    | other => rfl
    | dir rd es =>
      rw [get_cons, get_cons, lookup_setEntry_same]
      cases es.lookup n with
      | none => rfl
      | some e => exact ih e

/-- Anywhere else. -/
theorem get_setText_other (s : Str) (p : Path) : ∀ (q : Path) (fs : FS), ¬ q <+: p →
    (FS.setText s p fs).get q = fs.get q := by
  induction p with
  | nil =>
    intro q fs h
    rw [setText_nil]
    cases q with
    | nil => exact absurd (List.prefix_refl _) h
    | cons n q => cases fs <;> rfl
  | cons n p ih =>
    intro q fs h
    cases q with
    | nil => exact absurd List.nil_prefix h
    | cons m q =>
      rw [setText_cons]
      cases fs with
      | file t w => rfl
      | other => rfl
      | dir rd es =>
        rw [get_cons, get_cons]
        by_cases hm : m = n
        · subst hm
          rw [lookup_setEntry_same]
          have hq : ¬ q <+: p := fun hp => h ((List.cons_prefix_cons).2 ⟨rfl, hp⟩)
          cases es.lookup m with
          | none => rfl
          | some e => exact ih q e hq
        · rw [lookup_setEntry_ne s n m p es hm]

/-- What a path leads to, without the contents of files. -/
theorem isFile_setText (s : Str) (p q : Path) (fs : FS) : (FS.setText s p fs).isFile q = fs.isFile q := by
  unfold FS.isFile
  by_cases h : q <+: p
  · obtain ⟨r, rfl⟩ := h
    rw [get_setText_prefix]
    cases fs.get q with
    | none => rfl
    | some e => cases e <;> cases r <;> simp [FS.setText]
  · rw [get_setText_other s p q fs h]

theorem canWrite_setText (s : Str) (p q : Path) (fs : FS) : (FS.setText s p fs).canWrite q = fs.canWrite q := by
  unfold FS.canWrite
  by_cases h : q <+: p
  · obtain ⟨r, rfl⟩ := h
    rw [get_setText_prefix]
    cases fs.get q with
    | none => rfl
    | some e => cases e <;> cases r <;> simp [FS.setText]
  · rw [get_setText_other s p q fs h]

theorem read_setText_ne (s : Str) (p q : Path) (fs : FS) (hne : q ≠ p) :
    (FS.setText s p fs).read q = fs.read q := by
  unfold FS.read
  by_cases h : q <+: p
  · obtain ⟨r, rfl⟩ := h
    rw [get_setText_prefix]
    cases r with
    | nil => simp at hne
    | cons n r =>
      cases fs.get q with
      | none => rfl
      | some e => cases e <;> simp [FS.setText]
  · rw [get_setText_other s p q fs h]

theorem read_setText_same (s : Str) (p : Path) (fs : FS) (h : fs.isFile p = true) :
    (FS.setText s p fs).read p = some s := by
  have := get_setText_prefix s p [] fs
  rw [List.append_nil] at this
  unfold FS.read
  rw [this]
  unfold FS.isFile at h
  cases hg : fs.get p with
  | none => rw [hg] at h; cases h
  | some e =>
    rw [hg] at h
    cases e with
    | file t w => rfl
    | dir _ _ => cases h
    | other => cases h

/-! ### Listings and configuration lookup only see names and kinds -/

theorem find_setEntry (s : Str) (n : Name) (p : Path) (es : List (Name × FS)) (g : Name → Bool) :
    ((FS.setEntry s n p es).find? fun e => (match e.2 with
      | .file _ _ => true
      | _ => false) && g e.1).map Prod.fst =
    (es.find? fun e => (match e.2 with
      | .file _ _ => true
      | _ => false) && g e.1).map Prod.fst := by
  induction es with
  | nil => rfl
  | cons x es ih =>
    obtain ⟨m, e⟩ := x
    simp only [FS.setEntry]
    by_cases hm : m = n
    · subst hm
      rw [if_pos rfl]
      have hk : (match FS.setText s p e with
          | .file _ _ => true
          | _ => false) = (match e with
          | .file _ _ => true
          | _ => false) := by
        cases e <;> cases p <;> simp [FS.setText]
      simp only [List.find?_cons, hk]
      split <;> rfl
    · rw [if_neg hm]
      simp only [List.find?_cons]
      split
      · rfl
      · exact ih

theorem configInDir_setText (s : Str) (p d : Path) (fs : FS) :
    configInDir (FS.setText s p fs) d = configInDir fs d := by
  unfold configInDir
  by_cases h : d <+: p
  · obtain ⟨r, rfl⟩ := h
    rw [get_setText_prefix]
    cases fs.get d with
    | none => rfl
    | some e =>
      cases r with
      | nil => cases e <;> simp [FS.setText]
      | cons n r =>
        cases e with
        | file t w => simp [FS.setText]
        | other => simp [FS.setText]
        | dir rd es =>
          simp only [Option.map_some, FS.setText]
          cases rd with
          | false => rfl
          | true =>
            simp only
            have := find_setEntry s n r es isConfigName
            have h2 : ∀ (o : Option (Name × FS)), o.map (fun e => d ++ [e.1]) =
                (o.map Prod.fst).map (fun m => d ++ [m]) := by
              intro o; cases o <;> rfl
            rw [h2, h2]
            exact congrArg (Option.map fun m => d ++ [m]) this
  · rw [get_setText_other s p d fs h]

theorem configUp_setText (s : Str) (p q : Path) (fs : FS) (k : Nat) :
    configUp (FS.setText s p fs) q k = configUp fs q k := by
  induction k with
  | zero => simp only [configUp]; exact configInDir_setText s p [] fs
  | succ k ih => simp only [configUp, ih, configInDir_setText]

theorem fileConfig_setText (s : Str) (p q : Path) (fs : FS) :
    fileConfig (FS.setText s p fs) q = fileConfig fs q := by
  cases q with
  | nil => rfl
  | cons n q => exact configUp_setText s p (n :: q) fs _

/-- The result for a file depends only on that file and its configuration file. -/
theorem processFile_setText (s : Str) (p q : Path) (fs : FS) (c : Config) (hne : q ≠ p)
    (hc : c.hasEmptyFormat = true → fileConfig fs q ≠ some p) :
    processFile (FS.setText s p fs) c q = processFile fs c q := by
  unfold processFile
  rw [isFile_setText, read_setText_ne s p q fs hne, fileConfig_setText]
  cases hf : fileConfig fs q with
  | none => rfl
  | some d =>
    by_cases he : c.hasEmptyFormat = true
    · have : d ≠ p := by
        intro e; subst e; exact hc he hf
      simp only [read_setText_ne s p d fs this]
    · simp [he]

mutual
theorem dirFiles_setText (rec : Bool) (s : Str) : ∀ (fs : FS) (p : Path),
    dirFiles rec (FS.setText s p fs) = dirFiles rec fs
  | .file _ _, p => by cases p <;> simp [FS.setText, dirFiles]
  | .other, p => by cases p <;> simp [FS.setText]
  | .dir r es, p => by
    cases p with
    | nil => simp [FS.setText]
    | cons n p =>
      have := entryFiles_setText rec s es n p
      simp only [FS.setText, dirFiles, this]
theorem entryFiles_setText (rec : Bool) (s : Str) : ∀ (es : List (Name × FS)) (n : Name) (p : Path),
    entryFiles rec (FS.setEntry s n p es) = entryFiles rec es
  | [], n, p => rfl
  | (m, .file t w) :: es, n, p => by
    have ih := entryFiles_setText rec s es n p
    simp only [FS.setEntry]
    split
    · cases p <;> simp [FS.setText, entryFiles]
    · simp only [entryFiles, ih]
  | (m, .other) :: es, n, p => by
    have ih := entryFiles_setText rec s es n p
    simp only [FS.setEntry]
    split
    · cases p <;> simp [FS.setText]
    · simp only [entryFiles, ih]
  | (m, .dir r sub) :: es, n, p => by
    have ih := entryFiles_setText rec s es n p
    have ihd := dirFiles_setText true s (.dir r sub) p
    simp only [FS.setEntry]
    split
    · cases p with
      | nil => simp [FS.setText]
      | cons k p =>
        simp only [FS.setText] at ihd ⊢
        simp only [entryFiles, ihd]
    · simp only [entryFiles, ih]
end

theorem getPathFiles_setText (rec : Bool) (s : Str) (p q : Path) (fs : FS) :
    getPathFiles (FS.setText s p fs) rec q = getPathFiles fs rec q := by
  unfold getPathFiles
  by_cases h : q <+: p
  · obtain ⟨r, rfl⟩ := h
    rw [get_setText_prefix]
    cases fs.get q with
    | none => rfl
    | some e =>
      have hd := dirFiles_setText rec s e r
      cases e with
      | file t w => cases r <;> simp [FS.setText]
      | other => cases r <;> simp [FS.setText]
      | dir rd es =>
        cases r with
        | nil => simp [FS.setText]
        | cons n r =>
          simp only [FS.setText] at hd
          simp only [Option.map_some, FS.setText, hd]
  · rw [get_setText_other s p q fs h]

end Luafmt
