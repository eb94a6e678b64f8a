import Verif.Proofs.SetText
import Verif.Proofs.Cli
import Verif.Props.Cli
import Verif.Props.Options

/-
C17 to C21, C23: files, directories and configuration files.
-/
namespace Luafmt
open Spec

/-! ### C19 -/

/-- C19. A directory argument selects exactly the Lua files below it (directly below it without `-r`),
each of them once. -/
theorem C19_directory_selects_lua_files (fs : FS) (hfs : ProperTree fs) (p : Path) (rec : Bool)
    (readable : Bool) (es : List (Name × FS)) (hp : fs.get p = some (.dir readable es)) (ps : List Path)
    (h : getPathFiles fs rec p = some ps) :
    ps.Nodup ∧ ∀ q, q ∈ ps ↔ ∃ rel name, q = p ++ rel ++ [name] ∧ FileAt fs q ∧ LuaName name ∧
      (rec = false → rel = []) := by
  have proper : ∀ (p : Path) (fs d : FS), ProperTree fs → fs.get p = some d → ProperTree d := by
    intro p
    induction p with
    | nil => intro fs d h1 h2; cases h2; exact h1
    | cons n p ih =>
      intro fs d h1 h2
      cases fs with
      | file _ _ => cases h2
      | other => cases h2
      | dir r es =>
        rw [get_cons] at h2
        cases hl : es.lookup n with
        | none => rw [hl] at h2; cases h2
        | some e =>
          rw [hl] at h2
          refine ih e d ?_ h2
          have hm := lookup_mem hl
          have : ∀ es : List (Name × FS), ProperEntries es → (n, e) ∈ es → ProperTree e := by
            intro es
            induction es with
            | nil => intro _ h; cases h
            | cons x es ih =>
              intro h1 h2
              rcases List.mem_cons.1 h2 with h2 | h2
              · subst h2; exact h1.1
              · exact ih h1.2 h2
          exact this es h1.2 hm
  unfold getPathFiles at h
  rw [hp] at h
  simp only [Option.map_eq_some_iff] at h
  obtain ⟨qs, hq, rfl⟩ := h
  obtain ⟨nd, hi⟩ := dirFiles_lists rec _ qs (proper p fs _ hfs hp) ⟨_, _, rfl⟩ hq
  refine ⟨?_, fun q => ?_⟩
  · refine List.Pairwise.map _ ?_ nd
    intro a b hab h
    exact hab (by simpa using h)
  · have hget : ∀ r, FileAt fs (p ++ r) ↔ FileAt (.dir readable es) r := by
      intro r
      simp only [FileAt, get_append, hp, Option.bind_some]
    constructor
    · intro hm
      obtain ⟨x, hx, rfl⟩ := List.mem_map.1 hm
      obtain ⟨rel, name, rfl, hf, hl, hr⟩ := (hi x).1 hx
      exact ⟨rel, name, by simp, (hget _).2 hf, hl, hr⟩
    · rintro ⟨rel, name, rfl, hf, hl, hr⟩
      rw [List.append_assoc] at hf
      refine List.mem_map.2 ⟨rel ++ [name], (hi _).2 ⟨rel, name, rfl, (hget _).1 hf, hl, hr⟩, by simp⟩

/-- C19. A file that is named explicitly is always taken. -/
theorem C19_named_file_is_taken (fs : FS) (p : Path) (rec : Bool) (h : FileAt fs p) :
    getPathFiles fs rec p = some [p] := by
  obtain ⟨t, w, h⟩ := h
  simp [getPathFiles, h]

/-- A tree with Lua files, a configuration file, a file with another extension, a hidden file `.lua` and a
subdirectory. -/
def sampleTree : FS := .dir true [
  (L!"a.lua", .file (some L!"x=1") true),
  (L!".luafmt.lua", .file (some L!"max_width = 80") true),
  (L!"b.txt", .file (some L!"x=1") true),
  (L!".lua", .file (some L!"x=1") true),
  (L!"sub", .dir true [(L!"c.d.lua", .file (some L!"y = 2") true), (L!"e", .dir true [])])]

example : ProperTree sampleTree ∧
    getPathFiles sampleTree true [] = some [[L!"a.lua"], [L!"sub", L!"c.d.lua"]] ∧
    getPathFiles sampleTree false [] = some [[L!"a.lua"]] := by
  refine ⟨?_, by decide +kernel, by decide +kernel⟩
  simp [sampleTree, ProperTree, ProperEntries]

/-! ### C18 -/

/-- C18. The configuration file that is found lies in an ancestor directory of the file, and no directory
between that one and the file has a configuration file. -/
theorem C18_nearest_is_found (fs : FS) (p q : Path) (h : fileConfig fs p = some q) :
    ∃ k name, k < p.length ∧ q = p.take k ++ [name] ∧ HasConfig fs (p.take k) name ∧
      ∀ i other, k < i → i < p.length → ¬ HasConfig fs (p.take i) other := by
  cases p with
  | nil => cases h
  | cons n p =>
    obtain ⟨j, name, hj, hq, hc, hno⟩ := configUp_some fs (n :: p) q _ h
    have hlen : (n :: p).length = p.length + 1 := rfl
    rw [hlen] at hj
    exact ⟨j, name, by simp; omega, hq, hc, fun i m h1 h2 => hno i m h1 (by rw [hlen] at h2 ⊢; omega)⟩

/-- C18. If none is found then no ancestor directory has one. -/
theorem C18_none_found (fs : FS) (p : Path) (h : fileConfig fs p = none) :
    ∀ i other, i < p.length → ¬ HasConfig fs (p.take i) other := by
  cases p with
  | nil => intro i m h; simp at h
  | cons n p =>
    intro i m hi
    exact configUp_none fs (n :: p) _ h i m (by simp at hi ⊢; omega)

example : fileConfig sampleTree [L!"sub", L!"c.d.lua"] = some [L!".luafmt.lua"] ∧
    fileConfig (.dir true [(L!"a.lua", .file none true)]) [L!"a.lua"] = none := by decide +kernel

/-! ### C17 -/

/-- The options that count as format options: all but `line_range`. -/
def Spec.SetsFormat (p : Str × Str) : Prop :=
  Known p.1 ∧ p.1 ≠ L!"line_range" ∧ ∃ v, Denotes (kindOf p.1) p.2 v

theorem hasEmptyFormat_iff (c : Config) :
    c.hasEmptyFormat = true ↔ ∀ name, name ≠ L!"line_range" → value c name = none := by
  unfold Config.hasEmptyFormat
  rw [List.all_eq_true]
  constructor
  · intro h name hne
    unfold value
    rw [← table_agree]
    cases hl : optTable.lookup name with
    | none => rfl
    | some o =>
      have := h _ (lookup_mem hl)
      simp only [Option.bind_some]
      cases o with
      | b o => simp only [Option.isNone_iff_eq_none] at this; simp [Spec.read, this]
      | n o => simp only [Option.isNone_iff_eq_none] at this; simp [Spec.read, this]
      | s o => simp only [Option.isNone_iff_eq_none] at this; simp [Spec.read, this]
      | line =>
        exact absurd (table_inj hl (by decide +kernel : optTable.lookup L!"line_range" = some .line)) hne
  · intro h p hp
    have hl : optTable.lookup p.1 = some p.2 := by
      have : ∀ p ∈ optTable, optTable.lookup p.1 = some p.2 := by decide +kernel
      exact this p hp
    by_cases hne : p.1 = L!"line_range"
    · rw [hne] at hl
      have : optTable.lookup L!"line_range" = some .line := by decide +kernel
      rw [this] at hl
      cases hp2 : p.2 with
      | line => rfl
      | b o => rw [hp2] at hl; cases hl
      | n o => rw [hp2] at hl; cases hl
      | s o => rw [hp2] at hl; cases hl
    · have hv := h p.1 hne
      unfold value at hv
      rw [← table_agree, hl] at hv
      simp only [Option.bind_some] at hv
      cases hp2 : p.2 with
      | b o => rw [hp2] at hv; simpa [Spec.read] using hv
      | n o => rw [hp2] at hv; simpa [Spec.read] using hv
      | s o => rw [hp2] at hv; simpa [Spec.read] using hv
      | line => rfl

theorem set_empty_iff (c : Config) (n s : Str) :
    (c.set n s).hasEmptyFormat = true ↔ c.hasEmptyFormat = true ∧ ¬ SetsFormat (n, s) := by
  by_cases hs : SetsFormat (n, s)
  · obtain ⟨hk, hne, v, hv⟩ := hs
    have hval := C14_good_option_set c n s v hk hv
    constructor
    · intro h
      rw [(hasEmptyFormat_iff _).1 h n hne] at hval
      cases hval
    · rintro ⟨_, h⟩
      exact absurd ⟨hk, hne, v, hv⟩ h
  · by_cases hn : n = L!"line_range"
    · subst hn
      rw [hasEmptyFormat_iff, hasEmptyFormat_iff]
      constructor
      · intro h
        exact ⟨fun m hm => by rw [← C15_set_other c _ m s hm]; exact h m hm, hs⟩
      · rintro ⟨h, _⟩ m hm
        rw [C15_set_other c _ m s hm]; exact h m hm
    · have : c.set n s = c := by
        apply C14_bad_option_ignored
        by_cases hk : Known n
        · right
          intro v hv
          exact hs ⟨hk, hn, v, hv⟩
        · exact Or.inl hk
      rw [this]
      exact ⟨fun h => ⟨h, hs⟩, fun h => h.1⟩

/-- C17. A configuration made from assignments is without format options exactly if none of the
assignments is a valid assignment to an option other than `line_range`. -/
theorem C17_when_config_file_is_used (c : Config) (l : List (Str × Str)) :
    (c.setAll l).hasEmptyFormat = true ↔ c.hasEmptyFormat = true ∧ ∀ p ∈ l, ¬ SetsFormat p := by
  induction l generalizing c with
  | nil => simp [Config.setAll]
  | cons p l ih =>
    have : c.setAll (p :: l) = (c.set p.1 p.2).setAll l := rfl
    rw [this, ih, set_empty_iff]
    simp only [List.forall_mem_cons, and_assoc]

/-- C17. If the command line sets a format option, the file is formatted with the options of the command
line alone, whatever configuration files there are. -/
theorem C17_format_options_replace_config_file (fs : FS) (l : List (Str × Str)) (x : Str × Str) (hx : x ∈ l)
    (hs : SetsFormat x) (p : Path) (text : Str) (hp : fs.read p = some text) :
    processFile fs (Config.default.setAll l) p = format (Config.default.setAll l) text := by
  have he : ¬ (Config.default.setAll l).hasEmptyFormat = true := by
    rw [C17_when_config_file_is_used]
    rintro ⟨_, h⟩
    exact h x hx hs
  have hf : fs.isFile p = true := by
    unfold FS.read at hp
    unfold FS.isFile
    cases hg : fs.get p with
    | none => rw [hg] at hp; cases hp
    | some e =>
      rw [hg] at hp
      cases e with
      | file t w => rfl
      | dir _ _ => cases hp
      | other => cases hp
  simp [processFile, hf, hp, he]

/-- C17. Otherwise the nearest configuration file decides; its absence is an error. -/
theorem C17_otherwise_config_file (fs : FS) (l : List (Str × Str)) (hl : ∀ x ∈ l, ¬ SetsFormat x)
    (p : Path) (text : Str) (hp : fs.read p = some text) :
    (fileConfig fs p = none → processFile fs (Config.default.setAll l) p = .error .noConfigureFile) ∧
    (∀ q content c', fileConfig fs p = some q → fs.read q = some content →
      (Config.default.setAll l).reload content = some c' →
      processFile fs (Config.default.setAll l) p = format c' text) := by
  have he : (Config.default.setAll l).hasEmptyFormat = true := by
    rw [C17_when_config_file_is_used]
    exact ⟨by decide +kernel, hl⟩
  have hf : fs.isFile p = true := by
    unfold FS.read at hp
    unfold FS.isFile
    cases hg : fs.get p with
    | none => rw [hg] at hp; cases hp
    | some e =>
      rw [hg] at hp
      cases e with
      | file t w => rfl
      | dir _ _ => cases hp
      | other => cases hp
  constructor
  · intro h
    simp [processFile, hf, hp, he, h]
  · intro q content c' h1 h2 h3
    simp [processFile, hf, hp, he, h1, h2, h3]

/-- C17 (partial: a configuration file may contain `line_range` itself). The line range of the command
line is kept if the configuration file does not assign `line_range`. -/
theorem C17_line_range_is_kept_partial (c c' : Config) (content : Str) (tree body : Node)
    (ht : parseLua content = some tree) (hb : chunkBody tree = some body)
    (hn : ∀ x ∈ configAssignments body, x.1 ≠ L!"line_range") (h : c.reload content = some c') :
    c'.lineRange = c.lineRange := by
  have hset : ∀ (l : List (Str × Str)) (c : Config), (∀ x ∈ l, x.1 ≠ L!"line_range") →
      value (c.setAll l) L!"line_range" = value c L!"line_range" := by
    intro l
    induction l with
    | nil => intro c _; rfl
    | cons x l ih =>
      intro c hx
      have : c.setAll (x :: l) = (c.set x.1 x.2).setAll l := rfl
      rw [this, ih _ (fun y hy => hx y (by simp [hy]))]
      exact C15_set_other c x.1 _ x.2 (fun e => hx x (by simp) e.symm)
  have hv := hset _ c hn
  simp only [Config.reload, ht, hb, Option.some.injEq] at h
  rw [h] at hv
  have hl : options.lookup L!"line_range" = some .line := by decide +kernel
  unfold value at hv
  rw [hl] at hv
  simp only [Option.bind_some, Spec.read] at hv
  cases h1 : c'.lineRange <;> cases h2 : c.lineRange <;> rw [h1, h2] at hv <;> simp at hv
  exact congrArg some (Prod.ext hv.1 hv.2)

/-- C17, the missing part is false: a configuration file replaces the line range of the command line. -/
theorem C17_line_range_can_be_replaced : ∃ (l : List (Str × Str)) (content : Str) (c' : Config),
    (Config.default.setAll l).lineRange = some (1, 2) ∧
    (Config.default.setAll l).reload content = some c' ∧ c'.lineRange = some (3, 4) := by
  refine ⟨[(L!"line_range", L!"1:2")], L!"line_range = \"3:4\"", _, by decide +kernel, rfl, by decide +kernel⟩

/-- A valid format option, an invalid one, and `line_range`. -/
example : SetsFormat (L!"max_width", L!"80") ∧ ¬ SetsFormat (L!"max_width", L!"wide") ∧
    ¬ SetsFormat (L!"line_range", L!"1:2") := by
  refine ⟨⟨by unfold Known; decide +kernel, by decide +kernel, .num 80, ?_⟩, ?_, ?_⟩
  · exact (parseValue_iff _ _ _).1 (by decide +kernel)
  · rintro ⟨_, _, v, hv⟩
    have := (parseValue_iff _ _ _).2 hv
    have e : parseValue (kindOf (L!"max_width", L!"wide").1) (L!"max_width", L!"wide").2 = none := by
      decide +kernel
    rw [e] at this; cases this
  · rintro ⟨_, h, _⟩
    exact h rfl

end Luafmt
