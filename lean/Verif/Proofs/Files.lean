import Verif.Spec.Files
import Verif.Proofs.Config

/-
Facts about file names, directory listings and configuration lookup.
-/
namespace Luafmt
open Spec

theorem extension_iff (n ext : Str) : extension n = some ext ↔
    ∃ base, base ≠ [] ∧ n = base ++ '.' :: ext ∧ '.' ∉ ext := by
  unfold extension
  constructor
  · intro h
    cases hs : splitAtChar '.' n.reverse with
    | none => rw [hs] at h; cases h
    | some p =>
      obtain ⟨e, b⟩ := p
      rw [hs] at h
      simp only at h
      obtain ⟨h1, h2⟩ := (splitAtChar_iff '.' n.reverse e b).1 hs
      split at h
      · cases h
      · rename_i hb
        cases h
        refine ⟨b.reverse, by simpa using hb, ?_, by simpa using h2⟩
        have := congrArg List.reverse h1
        simpa using this
  · rintro ⟨base, hb, rfl, he⟩
    have : splitAtChar '.' (base ++ '.' :: ext).reverse = some (ext.reverse, base.reverse) :=
      (splitAtChar_iff _ _ _ _).2 ⟨by simp, by simpa using he⟩
    rw [this]
    simp [hb]

theorem lua_no_dot : ('.' : Char) ∉ L!"lua" := by decide

theorem isLuaName_iff (n : Name) : isLuaName n = true ↔ LuaName n := by
  simp only [isLuaName, Bool.and_eq_true, beq_iff_eq, Bool.not_eq_true', LuaName]
  rw [extension_iff]
  constructor
  · rintro ⟨⟨base, hb, h, _⟩, h2⟩
    refine ⟨⟨base, hb, h⟩, ?_⟩
    rw [← List.isPrefixOf_iff_prefix]
    change ¬ (cfgPrefix.isPrefixOf n = true)
    rw [h2]; simp
  · rintro ⟨⟨base, hb, h⟩, h2⟩
    refine ⟨⟨base, hb, h, lua_no_dot⟩, ?_⟩
    rw [← List.isPrefixOf_iff_prefix] at h2
    change ¬ (cfgPrefix.isPrefixOf n = true) at h2
    exact Bool.eq_false_iff.2 h2

theorem isConfigName_iff (n : Name) : isConfigName n = true ↔ ConfigName n := by
  simp only [isConfigName, Bool.and_eq_true, beq_iff_eq, ConfigName]
  rw [extension_iff, List.isPrefixOf_iff_prefix]
  constructor
  · rintro ⟨⟨t, ht⟩, base, hb, h, _⟩
    -- the dot of `.lua` cannot be inside `.luafmt`
    rcases Nat.lt_or_ge base.length cfgPrefix.length with hlt | hge
    · exfalso
      rw [h] at ht
      have e1 : (cfgPrefix ++ t)[base.length]? = some '.' := by
        rw [ht]; simp
      rw [List.getElem?_append_left hlt] at e1
      have : ∀ i, i < cfgPrefix.length → i ≠ 0 → cfgPrefix[i]? ≠ some '.' := by decide
      exact this _ hlt (by simpa using hb) e1
    · rw [h] at ht
      obtain ⟨m, rfl⟩ : ∃ m, base = cfgPrefix ++ m := by
        refine ⟨base.drop cfgPrefix.length, ?_⟩
        have : base.take cfgPrefix.length = cfgPrefix := by
          have := congrArg (List.take cfgPrefix.length) ht
          rw [List.take_left', List.take_append_of_le_length hge] at this
          · exact this.symm
          · rfl
        conv => lhs; rw [← List.take_append_drop cfgPrefix.length base, this]
      exact ⟨m, by rw [h]; rfl⟩
  · rintro ⟨mid, rfl⟩
    refine ⟨⟨mid ++ L!".lua", by simp [cfgPrefix]⟩, L!".luafmt" ++ mid, by simp, by simp, lua_no_dot⟩

/-! ### Paths -/

theorem get_cons (r : Bool) (es : List (Name × FS)) (n : Name) (p : Path) :
    (FS.dir r es).get (n :: p) = (es.lookup n).bind (FS.get · p) := rfl

theorem get_append (fs : FS) (p q : Path) : fs.get (p ++ q) = (fs.get p).bind (FS.get · q) := by
  induction p generalizing fs with
  | nil => rfl
  | cons n p ih =>
    simp only [List.cons_append, FS.get]
    cases fs.child n with
    | none => rfl
    | some e => simp [ih]

theorem lookup_cons_ne {m n : Name} {e : FS} {es : List (Name × FS)} (h : n ≠ m) :
    ((m, e) :: es).lookup n = es.lookup n := by
  have : (n == m) = false := by simpa using h
  simp [List.lookup, this]

theorem lookup_cons_eq {n : Name} {e : FS} {es : List (Name × FS)} :
    ((n, e) :: es).lookup n = some e := by
  simp [List.lookup]

/-- What `dirFiles` promises about a tree. -/
def Lists (rec : Bool) (d : FS) (ps : List Path) : Prop :=
  ps.Nodup ∧ ∀ q, q ∈ ps ↔ ∃ rel name, q = rel ++ [name] ∧ FileAt d q ∧ LuaName name ∧ (rec = false → rel = [])

theorem fileAt_cons_ne {m n : Name} {e : FS} {es : List (Name × FS)} {r : Bool} {q : Path} (h : n ≠ m) :
    FileAt (.dir r ((m, e) :: es)) (n :: q) ↔ FileAt (.dir r es) (n :: q) := by
  simp only [FileAt, get_cons, lookup_cons_ne h]

theorem fileAt_cons_eq {n : Name} {e : FS} {es : List (Name × FS)} {r : Bool} {q : Path} :
    FileAt (.dir r ((n, e) :: es)) (n :: q) ↔ FileAt e q := by
  simp only [FileAt, get_cons, lookup_cons_eq, Option.bind_some]

theorem fileAt_nil_dir {r : Bool} {es : List (Name × FS)} : ¬ FileAt (.dir r es) [] := by
  rintro ⟨t, w, h⟩; cases h

theorem fileAt_mem {r : Bool} {es : List (Name × FS)} {n : Name} {q : Path}
    (h : FileAt (.dir r es) (n :: q)) : n ∈ es.map Prod.fst := by
  obtain ⟨t, w, h⟩ := h
  rw [get_cons] at h
  cases hl : es.lookup n with
  | none => rw [hl] at h; cases h
  | some e => exact List.mem_map.2 ⟨_, lookup_mem hl, rfl⟩

mutual
theorem dirFiles_lists (rec : Bool) : ∀ (d : FS) (ps : List Path), ProperTree d → (∃ r es, d = .dir r es) →
    dirFiles rec d = some ps → Lists rec d ps
  | .file _ _, _, _, h, _ => by obtain ⟨_, _, h⟩ := h; cases h
  | .other, _, _, h, _ => by obtain ⟨_, _, h⟩ := h; cases h
  | .dir r es, ps, hp, _, h => by
    simp only [dirFiles] at h
    split at h
    · exact entryFiles_lists rec r es ps hp.1 hp.2 h
    · cases h
theorem entryFiles_lists (rec : Bool) : ∀ (r : Bool) (es : List (Name × FS)) (ps : List Path),
    (es.map Prod.fst).Nodup → ProperEntries es → entryFiles rec es = some ps → Lists rec (.dir r es) ps
  | r, [], ps, _, _, h => by
    simp only [entryFiles, Option.some.injEq] at h
    subst h
    refine ⟨List.nodup_nil, fun q => Iff.intro (fun h => absurd h List.not_mem_nil) ?_⟩
    rintro ⟨rel, name, rfl, ⟨t, w, hg⟩, _⟩
    cases rel <;> simp [FS.get, FS.child, List.lookup] at hg
  | r, (n, .dir rd sub) :: es, ps, hn, hp, h => by
    have hn' : n ∉ es.map Prod.fst ∧ (es.map Prod.fst).Nodup := by simpa using hn
    have ihd := dirFiles_lists rec (.dir rd sub)
    have ihe := entryFiles_lists rec r es
    simp only [entryFiles] at h
    cases rec with
    | false =>
      simp only [Bool.false_eq_true, if_false] at h
      obtain ⟨nd, hi⟩ := ihe ps hn'.2 hp.2 h
      refine ⟨nd, fun q => (hi q).trans ?_⟩
      constructor
      · rintro ⟨rel, name, rfl, hf, hl, hr⟩
        have : rel = [] := hr rfl
        subst this
        have hne : name ≠ n := fun e => hn'.1 (e ▸ fileAt_mem hf)
        exact ⟨[], name, rfl, (fileAt_cons_ne hne).2 hf, hl, fun _ => rfl⟩
      · rintro ⟨rel, name, rfl, hf, hl, hr⟩
        have : rel = [] := hr rfl
        subst this
        by_cases hne : name = n
        · subst hne
          exact absurd (fileAt_cons_eq.1 hf) fileAt_nil_dir
        · exact ⟨[], name, rfl, (fileAt_cons_ne hne).1 hf, hl, fun _ => rfl⟩
    | true =>
      simp only [if_true] at h
      cases h1 : dirFiles true (.dir rd sub) with
      | none => rw [h1] at h; simp at h
      | some ps1 =>
        cases h2 : entryFiles true es with
        | none => rw [h1, h2] at h; simp at h
        | some ps2 =>
          rw [h1, h2] at h
          simp only [Option.some.injEq] at h
          subst h
          obtain ⟨nd1, hi1⟩ := ihd ps1 hp.1 ⟨_, _, rfl⟩ h1
          obtain ⟨nd2, hi2⟩ := ihe ps2 hn'.2 hp.2 h2
          refine ⟨?_, fun q => ?_⟩
          · refine List.nodup_append.2 ⟨?_, nd2, ?_⟩
            · refine List.Pairwise.map _ ?_ nd1
              intro a b hab h
              exact hab (by simpa using h)
            · intro a ha b hb hab
              obtain ⟨x, _, rfl⟩ := List.mem_map.1 ha
              subst hab
              obtain ⟨rel, name, hq, hf, _⟩ := (hi2 _).1 hb
              exact hn'.1 (fileAt_mem hf)
          · rw [List.mem_append, hi2]
            constructor
            · rintro (hm | ⟨rel, name, rfl, hf, hl, hr⟩)
              · obtain ⟨x, hx, rfl⟩ := List.mem_map.1 hm
                obtain ⟨rel, name, rfl, hf, hl, _⟩ := (hi1 x).1 hx
                exact ⟨n :: rel, name, rfl, fileAt_cons_eq.2 hf, hl, fun h => by cases h⟩
              · refine ⟨rel, name, rfl, ?_, hl, hr⟩
                cases rel with
                | nil =>
                  have hne : name ≠ n := fun e => hn'.1 (e ▸ fileAt_mem hf)
                  exact (fileAt_cons_ne hne).2 hf
                | cons m rel =>
                  have hne : m ≠ n := fun e => hn'.1 (e ▸ fileAt_mem hf)
                  exact (fileAt_cons_ne hne).2 hf
            · rintro ⟨rel, name, rfl, hf, hl, hr⟩
              cases rel with
              | nil =>
                by_cases hne : name = n
                · subst hne
                  exact absurd (fileAt_cons_eq.1 hf) fileAt_nil_dir
                · exact Or.inr ⟨[], name, rfl, (fileAt_cons_ne hne).1 hf, hl, hr⟩
              | cons m rel =>
                by_cases hne : m = n
                · subst hne
                  refine Or.inl (List.mem_map.2 ⟨rel ++ [name], ?_, rfl⟩)
                  exact (hi1 _).2 ⟨rel, name, rfl, fileAt_cons_eq.1 hf, hl, fun h => by cases h⟩
                · exact Or.inr ⟨m :: rel, name, rfl, (fileAt_cons_ne hne).1 hf, hl, hr⟩
  | r, (n, .file t w) :: es, ps, hn, hp, h => by
    have hn' : n ∉ es.map Prod.fst ∧ (es.map Prod.fst).Nodup := by simpa using hn
    have ihe := entryFiles_lists rec r es
    simp only [entryFiles, Option.map_eq_some_iff] at h
    obtain ⟨qs, h2, rfl⟩ := h
    obtain ⟨nd, hi⟩ := ihe qs hn'.2 hp.2 h2
    have hnot : [n] ∉ qs := by
      intro hm
      obtain ⟨rel, name, hq, hf, _⟩ := (hi _).1 hm
      exact hn'.1 (fileAt_mem hf)
    have key : ∀ q, q ∈ (if isLuaName n then [n] :: qs else qs) ↔ (q = [n] ∧ LuaName n) ∨ q ∈ qs := by
      intro q
      by_cases hl : isLuaName n = true
      · rw [if_pos hl]; simp [(isLuaName_iff n).1 hl]
      · rw [if_neg hl]; simp; exact fun _ x => absurd ((isLuaName_iff n).2 x) hl
    refine ⟨?_, fun q => ?_⟩
    · split
      · exact List.nodup_cons.2 ⟨hnot, nd⟩
      · exact nd
    · rw [key, hi]
      constructor
      · rintro (⟨rfl, hl⟩ | ⟨rel, name, rfl, hf, hl, hr⟩)
        · exact ⟨[], n, rfl, fileAt_cons_eq.2 ⟨t, w, rfl⟩, hl, fun _ => rfl⟩
        · refine ⟨rel, name, rfl, ?_, hl, hr⟩
          cases rel with
          | nil =>
            have hne : name ≠ n := fun e => hn'.1 (e ▸ fileAt_mem hf)
            exact (fileAt_cons_ne hne).2 hf
          | cons m rel =>
            have hne : m ≠ n := fun e => hn'.1 (e ▸ fileAt_mem hf)
            exact (fileAt_cons_ne hne).2 hf
      · rintro ⟨rel, name, rfl, hf, hl, hr⟩
        cases rel with
        | nil =>
          by_cases hne : name = n
          · subst hne
            exact Or.inl ⟨rfl, hl⟩
          · exact Or.inr ⟨[], name, rfl, (fileAt_cons_ne hne).1 hf, hl, hr⟩
        | cons m rel =>
          by_cases hne : m = n
          · subst hne
            obtain ⟨t', w', hg⟩ := fileAt_cons_eq.1 hf
            cases rel <;> simp [FS.get, FS.child] at hg
          · exact Or.inr ⟨m :: rel, name, rfl, (fileAt_cons_ne hne).1 hf, hl, hr⟩
  | r, (n, .other) :: es, ps, hn, hp, h => by
    have hn' : n ∉ es.map Prod.fst ∧ (es.map Prod.fst).Nodup := by simpa using hn
    have ihe := entryFiles_lists rec r es
    simp only [entryFiles] at h
    obtain ⟨nd, hi⟩ := ihe ps hn'.2 hp.2 h
    refine ⟨nd, fun q => (hi q).trans ?_⟩
    constructor
    · rintro ⟨rel, name, rfl, hf, hl, hr⟩
      refine ⟨rel, name, rfl, ?_, hl, hr⟩
      cases rel with
      | nil =>
        have hne : name ≠ n := fun e => hn'.1 (e ▸ fileAt_mem hf)
        exact (fileAt_cons_ne hne).2 hf
      | cons m rel =>
        have hne : m ≠ n := fun e => hn'.1 (e ▸ fileAt_mem hf)
        exact (fileAt_cons_ne hne).2 hf
    · rintro ⟨rel, name, rfl, hf, hl, hr⟩
      refine ⟨rel, name, rfl, ?_, hl, hr⟩
      cases rel with
      | nil =>
        by_cases hne : name = n
        · subst hne
          obtain ⟨t', w', hg⟩ := fileAt_cons_eq.1 hf
          simp [FS.get] at hg
        · exact (fileAt_cons_ne hne).1 hf
      | cons m rel =>
        by_cases hne : m = n
        · subst hne
          obtain ⟨t', w', hg⟩ := fileAt_cons_eq.1 hf
          cases rel <;> simp [FS.get, FS.child] at hg
        · exact (fileAt_cons_ne hne).1 hf
end

/-! ### The nearest configuration file -/

theorem configInDir_some (fs : FS) (d q : Path) (h : configInDir fs d = some q) :
    ∃ n, q = d ++ [n] ∧ HasConfig fs d n := by
  unfold configInDir at h
  split at h
  · rename_i es hg
    simp only [Option.map_eq_some_iff] at h
    obtain ⟨⟨n, e⟩, hf, rfl⟩ := h
    have h1 := List.find?_some hf
    have h2 := List.mem_of_find?_eq_some hf
    refine ⟨n, rfl, es, hg, ?_, ?_⟩
    · cases e with
      | file t w => exact ⟨t, w, h2⟩
      | dir _ _ => simp at h1
      | other => simp at h1
    · have : isConfigName n = true := by
        simp only [Bool.and_eq_true] at h1; exact h1.2
      exact (isConfigName_iff n).1 this
  · cases h

theorem configInDir_none (fs : FS) (d : Path) (h : configInDir fs d = none) (n : Name) : ¬ HasConfig fs d n := by
  rintro ⟨es, hg, ⟨t, w, hm⟩, hc⟩
  unfold configInDir at h
  rw [hg] at h
  simp only [Option.map_eq_none_iff, List.find?_eq_none] at h
  have := h _ hm
  simp [(isConfigName_iff n).2 hc] at this

theorem configUp_some (fs : FS) (p q : Path) : ∀ k, configUp fs p k = some q →
    ∃ j n, j ≤ k ∧ q = p.take j ++ [n] ∧ HasConfig fs (p.take j) n ∧
      ∀ i m, j < i → i ≤ k → ¬ HasConfig fs (p.take i) m := by
  intro k
  induction k with
  | zero =>
    intro h
    obtain ⟨n, hq, hc⟩ := configInDir_some fs [] q h
    exact ⟨0, n, Nat.le_refl _, by simpa using hq, by simpa using hc, fun i m h1 h2 => by omega⟩
  | succ k ih =>
    intro h
    simp only [configUp] at h
    cases hd : configInDir fs (p.take (k + 1)) with
    | some q' =>
      rw [hd] at h
      cases h
      obtain ⟨n, hq, hc⟩ := configInDir_some fs _ q hd
      exact ⟨k + 1, n, Nat.le_refl _, hq, hc, fun i m h1 h2 => by omega⟩
    | none =>
      rw [hd] at h
      obtain ⟨j, n, hj, hq, hc, hno⟩ := ih h
      refine ⟨j, n, by omega, hq, hc, fun i m h1 h2 => ?_⟩
      rcases Nat.lt_or_ge k i with hlt | hge
      · have : i = k + 1 := by omega
        subst this
        exact configInDir_none fs _ hd m
      · exact hno i m h1 hge

theorem configUp_none (fs : FS) (p : Path) : ∀ k, configUp fs p k = none →
    ∀ i m, i ≤ k → ¬ HasConfig fs (p.take i) m := by
  intro k
  induction k with
  | zero =>
    intro h i m hi
    have : i = 0 := by omega
    subst this
    simpa using configInDir_none fs [] h m
  | succ k ih =>
    intro h i m hi
    simp only [configUp] at h
    cases hd : configInDir fs (p.take (k + 1)) with
    | some q' => rw [hd] at h; cases h
    | none =>
      rw [hd] at h
      rcases Nat.lt_or_ge k i with hlt | hge
      · have : i = k + 1 := by omega
        subst this
        exact configInDir_none fs _ hd m
      · exact ih h i m hge

end Luafmt
