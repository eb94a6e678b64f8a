import Verif.Proofs.Emit

/-! # Without `force_single_line_table` no table is remembered as written on one line -/

namespace Luafmt

/-- The tables remembered as written on one line are the same. -/
def SameTables (st st' : St) : Prop := st'.cells.oneline = st.cells.oneline

theorem SameTables.trans {a b d : St} (h : SameTables a b) (h' : SameTables b d) : SameTables a d := Eq.trans h' h

/-- No writer of the child remembers a table. -/
structure KeepsTables (r : R) : Prop where
  w : ∀ (c : Config) (st st' : St), c.bool .forceSingleLineTable ≠ some true → r.w c st = .ok st' → SameTables st st'
  wl : ∀ (c : Config) (st st' : St) (b : Bool), c.bool .forceSingleLineTable ≠ some true → r.wl c st = .ok (st', b) →
    SameTables st st'
  meth : ∀ (c : Config) (st st' : St), c.bool .forceSingleLineTable ≠ some true → r.meth c st = .ok st' → SameTables st st'

theorem hintW_tables {env : Env} {c : Config} {loc : Loc} {x : Str} {st st' : St} (h : hintW env c loc x st = .ok st') :
    SameTables st st' := by
  simp only [hintW, Res.bind_eq_ok, Res.pure_eq] at h
  obtain ⟨f, _, h⟩ := h
  cases h; rfl

theorem nlW_tables {env : Env} {c : Config} {b : Bool} {loc : Loc} {x : Str} {st st' : St}
    (h : nlW env c b loc x st = .ok st') : SameTables st st' := by
  simp only [nlW, Res.bind_eq_ok, Res.pure_eq] at h
  obtain ⟨f, _, h⟩ := h
  cases h; rfl

theorem locW_tables {env : Env} {loc : Loc} {st st' : St} (h : locW env loc st = .ok st') : SameTables st st' := by
  simp only [locW, Res.bind_eq_ok, Res.pure_eq] at h
  obtain ⟨f, _, h⟩ := h
  cases h; rfl

theorem testOneline_tables {c : Config} {w : Config → W} {st st' : St} {x : Option Str}
    (hw : ∀ st st', w c st = .ok st' → SameTables st st') (h : testOneline c w st = .ok (st', x)) : SameTables st st' := by
  unfold testOneline at h
  split at h
  · cases h
  · cases h; rfl
  · next st1 h1 =>
    split at h
    · cases h
    · cases h
      have := hw _ _ h1
      exact this

theorem testOnelineNoNl_tables {c : Config} {w : Config → W} {st st' : St} {x : Option Str}
    (hw : ∀ st st', w c st = .ok st' → SameTables st st') (h : testOnelineNoNl c w st = .ok (st', x)) : SameTables st st' := by
  simp only [testOnelineNoNl, Res.bind_eq_ok, Res.pure_eq] at h
  obtain ⟨⟨st1, y⟩, h1, h2⟩ := h
  cases h2
  exact testOneline_tables hw h1

theorem testOnelineField_tables {c : Config} (hf : c.bool .forceSingleLineTable ≠ some true) {r : R} (hr : KeepsTables r)
    {st st' : St} {x : Option Str} (h : testOnelineField c r st = .ok (st', x)) : SameTables st st' := by
  unfold testOnelineField at h
  split at h
  all_goals first
    | (cases h; rfl)
    | (split at h
       · exact testOnelineNoNl_tables (fun _ _ => hr.w c _ _ hf) h
       · cases h; rfl)

theorem needNewlineField_tables {c : Config} (hf : c.bool .forceSingleLineTable ≠ some true) {i : Option Bool} {prev : Node} {r : R}
    (hr : KeepsTables r) {st st' : St} {b : Bool} (h : needNewlineField c i prev r st = .ok (st', b)) : SameTables st st' := by
  unfold needNewlineField at h
  split at h
  · split at h
    · cases h; rfl
    · split at h
      · simp only [Res.bind_eq_ok, Res.pure_eq] at h
        obtain ⟨⟨st1, x⟩, h1, h2⟩ := h
        cases h2
        exact testOnelineField_tables hf hr h1
      · cases h; rfl
  · cases h; rfl

theorem needNewlineSuffix_tables {c : Config} (hf : c.bool .forceSingleLineTable ≠ some true) {r : R}
    (hr : KeepsTables r) {st st' : St} {b : Bool} (h : needNewlineSuffix c r st = .ok (st', b)) : SameTables st st' := by
  have test : ∀ {w : Config → W}, (∀ st st', w c st = .ok st' → SameTables st st') →
      (do let (st, x) ← testOneline c w st
          pure (st, x.isNone) : Res (St × Bool)) = .ok (st', b) → SameTables st st' := by
    intro w hw h
    simp only [Res.bind_eq_ok, Res.pure_eq] at h
    obtain ⟨⟨st1, x⟩, h1, h2⟩ := h
    cases h2
    exact testOneline_tables hw h1
  have tw := test (fun st st' => hr.w c st st' hf)
  have tm := test (fun st st' => hr.meth c st st' hf)
  unfold needNewlineSuffix at h
  simp only at h
  split at h
  · split at h
    · split at h
      · exact tw h
      · cases h; rfl
    · cases h; rfl
  · split at h
    · split at h
      · split at h
        · exact tm h
        · exact tm h
        · exact tm h
        · split at h
          · exact tm h
          · exact tw h
        · exact tw h
      · cases h; rfl
    · cases h; rfl
  · cases h; rfl

theorem needNewline_tables {c : Config} (hf : c.bool .forceSingleLineTable ≠ some true) {t : Tag} {prev : Node} {r : R}
    (hr : KeepsTables r) {st st' : St} {b : Bool} (h : needNewline c t prev r st = .ok (st', b)) : SameTables st st' := by
  unfold needNewline at h
  split at h
  · cases h; rfl
  · simp only at h
    split at h
    all_goals
      split at h
      · cases h; rfl
      · split at h
        · split at h
          · simp only [Res.bind_eq_ok, Res.pure_eq] at h
            obtain ⟨⟨st1, x⟩, h1, h2⟩ := h
            cases h2
            exact testOneline_tables (fun _ _ => hr.w c _ _ hf) h1
          · cases h; rfl
        · cases h; rfl
  · cases h; rfl
  · exact needNewlineField_tables hf hr h
  · exact needNewlineSuffix_tables hf hr h
  · cases h; rfl

theorem needFirstNewline_tables {c : Config} (hf : c.bool .forceSingleLineTable ≠ some true) {t : Tag} {pos : Nat} {r : R}
    (hr : KeepsTables r) {st st' : St} {b : Bool} (h : needFirstNewline c t pos r st = .ok (st', b)) : SameTables st st' := by
  unfold needFirstNewline at h
  split at h
  · split at h
    · split at h
      · cases h; rfl
      · split at h
        · simp only [Res.bind_eq_ok, Res.pure_eq] at h
          obtain ⟨⟨st1, x⟩, h1, h2⟩ := h
          cases h2
          exact testOnelineField_tables hf hr h1
        · cases h; rfl
    · cases h; rfl
  · split at h
    · split at h
      · simp only [Res.bind_eq_ok, Res.pure_eq] at h
        obtain ⟨⟨st1, x⟩, h1, h2⟩ := h
        cases h2
        exact testOneline_tables (fun _ _ => hr.w c _ _ hf) h1
      · cases h; rfl
    · cases h; rfl
  · exact needNewlineSuffix_tables hf hr h
  · cases h; rfl

theorem askFirst_tables {c : Config} (hf : c.bool .forceSingleLineTable ≠ some true) {t : Tag} {pos : Nat} {r : R}
    (hr : KeepsTables r) {st st' : St} {b : Bool} (h : askFirst c t pos r st = .ok (st', b)) : SameTables st st' := by
  unfold askFirst at h
  split at h
  · exact needFirstNewline_tables hf hr h
  · cases h; rfl

theorem itemGap_tables {env : Env} {c : Config} (hf : c.bool .forceSingleLineTable ≠ some true) {t : Tag} {prev : Node} {r : R}
    (hr : KeepsTables r) {gap : Loc} {x : Str} {st st' : St} {b : Bool}
    (h : itemGap env c t prev r gap x st = .ok (st', b)) : SameTables st st' := by
  unfold itemGap at h
  split at h
  · simp only [Res.bind_eq_ok, Res.pure_eq] at h
    obtain ⟨st1, h1, h2⟩ := h
    cases h2
    exact locW_tables h1
  · simp only [Res.bind_eq_ok, Res.pure_eq] at h
    obtain ⟨⟨st1, nl⟩, h1, st2, h2, h3⟩ := h
    cases h3
    refine SameTables.trans (b := st1) ?_ (nlW_tables h2)
    unfold askNext at h1
    split at h1
    · exact needNewline_tables hf hr h1
    · cases h1; rfl

theorem sepRest_tables {env : Env} {c : Config} (hf : c.bool .forceSingleLineTable ≠ some true) {t : Tag} {pos : Nat} :
    ∀ {its : List SepItem} {last : SepItem} {ind b : Bool} {st st' : St}, (∀ it ∈ its, KeepsTables it.item) →
      sepRest env c t pos last its ind st = .ok (st', b) → SameTables st st' := by
  intro its
  induction its with
  | nil =>
    intro last ind b st st' _ h
    simp only [sepRest] at h
    split at h <;> (cases h; rfl)
  | cons it its ih =>
    intro last ind b st st' hr h
    simp only [sepRest, Res.bind_eq_ok] at h
    obtain ⟨⟨st1, nl⟩, h1, st2, h2, st3, h3, h4⟩ := h
    have a := hr it (by simp)
    have e1 := itemGap_tables hf a h1
    exact SameTables.trans (b := st1) e1 (.trans (a.w _ _ _ hf h2) (.trans (hintW_tables h3)
      (ih (fun x hx => hr x (by simp [hx])) h4)))

theorem listRest_tables {env : Env} {c : Config} (hf : c.bool .forceSingleLineTable ≠ some true) {t : Tag} :
    ∀ {its : List (Loc × R)} {prev : Node} {ind b : Bool} {st st' : St}, (∀ it ∈ its, KeepsTables it.2) →
      listRest env c t prev its ind st = .ok (st', b) → SameTables st st' := by
  intro its
  induction its with
  | nil =>
    intro prev ind b st st' _ h
    cases h; rfl
  | cons it its ih =>
    intro prev ind b st st' hr h
    obtain ⟨gap, r⟩ := it
    simp only [listRest, Res.bind_eq_ok] at h
    obtain ⟨⟨st1, nl⟩, h1, st2, h2, h3⟩ := h
    have a := hr _ List.mem_cons_self
    exact .trans (itemGap_tables hf a h1) (.trans (a.w _ _ _ hf h2) (ih (fun x hx => hr x (by simp [hx])) h3))

theorem sepItems_mem : ∀ {locs : List Loc} {rs : List R} {ss : List Str} {it : SepItem}, it ∈ sepItems locs rs ss → it.item ∈ rs
  | pre :: post :: ls, r :: rs, s :: ss, it, h => by
    simp only [sepItems, List.mem_cons] at h
    rcases h with rfl | h
    · simp
    · exact List.mem_cons_of_mem _ (sepItems_mem h)
  | [], _, _, _, h => by simp [sepItems] at h
  | [_], _, _, _, h => by simp [sepItems] at h
  | _ :: _ :: _, [], _, _, h => by simp [sepItems] at h
  | _ :: _ :: _, _ :: _, [], _, h => by simp [sepItems] at h

theorem listW_tables {env : Env} {c : Config} (hf : c.bool .forceSingleLineTable ≠ some true) {t : Tag} {span : Loc} {locs : List Loc}
    {rs : List R} (hr : ∀ r ∈ rs, KeepsTables r) {st st' : St} {b : Bool} (h : listW env t span locs rs c st = .ok (st', b)) :
    SameTables st st' := by
  unfold listW at h
  split at h
  · next ss _ =>
    have hs : ∀ it ∈ sepItems locs rs ss, KeepsTables it.item := fun it hi => hr _ (sepItems_mem hi)
    generalize sepItems locs rs ss = its at h hs
    cases its with
    | nil => cases h; rfl
    | cons it its =>
      simp only [sepList, Res.bind_eq_ok] at h
      obtain ⟨⟨st1, nl⟩, h1, st2, h2, st3, h3, st4, h4, h5⟩ := h
      have a := hs _ List.mem_cons_self
      exact .trans (askFirst_tables hf a h1) (.trans (nlW_tables h2) (.trans (a.w _ _ _ hf h3) (.trans (hintW_tables h4)
        (sepRest_tables hf (fun x hx => hs x (by simp [hx])) h5))))
  · split at h
    · have hs : ∀ it ∈ locs.zip rs, KeepsTables it.2 := fun it hi => hr _ (List.of_mem_zip hi).2
      generalize locs.zip rs = its at h hs
      cases its with
      | nil => cases h; rfl
      | cons it its =>
        obtain ⟨gap, r⟩ := it
        simp only [plainList, Res.bind_eq_ok] at h
        obtain ⟨⟨st1, nl⟩, h1, st2, h2, st3, h3, h4⟩ := h
        have a := hs _ List.mem_cons_self
        exact .trans (askFirst_tables hf a h1) (.trans (nlW_tables h2) (.trans (a.w _ _ _ hf h3)
          (listRest_tables hf (fun x hx => hs x (by simp [hx])) h4)))
    · cases h; rfl

theorem testIndent_tables {env : Env} {c : Config} (hf : c.bool .forceSingleLineTable ≠ some true) {r : R} (hr : KeepsTables r)
    {loc : Loc} {x : Str} {st st' : St} {b : Bool} (h : testIndent env c r loc x st = .ok (st', b)) : SameTables st st' := by
  have list : ∀ {st1 : St}, SameTables st st1 →
      (match r.wl c st1 with
      | .panic => .panic
      | .err => .ok (st, false)
      | .ok (st2, b) => .ok ({ st with cells := st2.cells }, b) : Res (St × Bool)) = .ok (st', b) → SameTables st st' := by
    intro st1 hs h
    split at h
    · cases h
    · cases h; rfl
    · next st2 b' h1 =>
      cases h
      have e : SameTables st1 st2 := hr.wl _ _ _ _ hf h1
      exact Eq.trans e hs
  unfold testIndent at h
  simp only at h
  split at h
  · split at h
    · cases h; rfl
    · split at h
      · cases h
      · cases h; rfl
      · next st1 h1 =>
        split at h
        · split at h
          · cases h; rfl
          · exact list (hintW_tables h1) h
        · cases h; rfl
  · split at h
    · cases h; rfl
    · split at h
      · cases h; rfl
      · split at h
        · cases h
        · cases h; rfl
        · next st1 h1 =>
          split at h
          · split at h
            · cases h; rfl
            · exact list (hintW_tables h1) h
          · cases h; rfl
  · split at h
    · cases h; rfl
    · split at h
      · cases h
      · cases h; rfl
      · next st1 h1 => exact list (hintW_tables h1) h
  · cases h; rfl

theorem kidW_tables {c : Config} (hf : c.bool .forceSingleLineTable ≠ some true) {rs : List R} (hr : ∀ r ∈ rs, KeepsTables r)
    {i : Nat} {st st' : St} (h : kidW rs i c st = .ok st') : SameTables st st' := by
  unfold kidW at h
  split at h
  · next r e => exact (hr r (List.mem_of_getElem? e)).w _ _ _ hf h
  · cases h

theorem runEl_tables {env : Env} {c : Config} (hf : c.bool .forceSingleLineTable ≠ some true) {locs : List Loc} {rs : List R}
    (hr : ∀ r ∈ rs, KeepsTables r) {e : El} {st st' : St} (h : runEl env locs rs c e st = .ok st') : SameTables st st' := by
  cases e with
  | lit s => cases h; rfl
  | hint i y => exact hintW_tables h
  | nl b i y => exact nlW_tables h
  | kid i => exact kidW_tables hf hr h
  | inc => cases h; rfl
  | dec => cases h; rfl
  | incF => cases h; rfl
  | decF => cases h; rfl

theorem runAll_tables {α : Type} {run : α → W} (hr : ∀ a st st', run a st = .ok st' → SameTables st st') :
    ∀ {xs : List α} {st st' : St}, runAll run xs st = .ok st' → SameTables st st'
  | [], _, _, h => by cases h; rfl
  | x :: xs, st, st', h => by
    simp only [runAll, Res.bind_eq_ok] at h
    obtain ⟨st1, h1, h2⟩ := h
    exact .trans (hr _ _ _ h1) (runAll_tables hr h2)

theorem runFm_tables {env : Env} {c : Config} (hf : c.bool .forceSingleLineTable ≠ some true) {locs : List Loc} {rs : List R}
    (hr : ∀ r ∈ rs, KeepsTables r) {m : Fm} {st st' : St} (h : runFm env locs rs c m st = .ok st') : SameTables st st' := by
  cases m with
  | el e => exact runEl_tables hf hr h
  | ind k i x body =>
    simp only [runFm] at h
    split at h
    · cases h
    · next r e =>
      simp only [Res.bind_eq_ok, Res.pure_eq] at h
      obtain ⟨⟨st1, b⟩, h1, st2, h2, h3⟩ := h
      have e1 := testIndent_tables hf (hr r (List.mem_of_getElem? e)) h1
      have e2 := runAll_tables (fun _ _ _ => runEl_tables hf hr) h2
      cases h3
      cases b <;> exact SameTables.trans e1 e2

theorem plainW_tables {env : Env} {c : Config} (hf : c.bool .forceSingleLineTable ≠ some true) {t : Tag} {span : Loc} {locs : List Loc}
    {rs : List R} (hr : ∀ r ∈ rs, KeepsTables r) {st st' : St} (h : plainW env t span locs rs c st = .ok st') :
    SameTables st st' := by
  unfold plainW at h
  split at h
  · simp only [binaryW, Res.bind_eq_ok] at h
    obtain ⟨st1, h1, h⟩ := h
    have e1 : SameTables (incIndent (some _) st) st1 := kidW_tables hf hr h1
    refine SameTables.trans (a := st) (b := st1) e1 ?_
    split at h
    · simp only [Res.bind_eq_ok, Res.pure_eq] at h
      obtain ⟨⟨a, b⟩, ha, x, hx, hb⟩ := h
      cases hx
      exact .trans (testOneline_tables (fun _ _ h => runAll_tables (fun _ _ _ => runEl_tables hf hr) h) ha)
        (runAll_tables (fun _ _ _ => runEl_tables hf hr) hb)
    · exact runAll_tables (fun _ _ _ => runEl_tables hf hr) h
  · simp only [tableW, Res.bind_eq_ok] at h
    obtain ⟨st1, h1, h⟩ := h
    have e1 := nlW_tables h1
    split at h
    · cases h
    · next r e =>
      rw [if_neg (fun h => hf h.1)] at h
      simp only [Res.bind_eq_ok, Res.pure_eq] at h
      obtain ⟨⟨st2, ind⟩, h2, st3, h3, st4, h4, st5, h5, h6⟩ := h
      cases h2
      cases h6
      have e3 := hintW_tables h3
      have e4 := (hr r (List.mem_of_getElem? e)).w _ _ _ hf h4
      have e5 := nlW_tables h5
      refine e1.trans (SameTables.trans (b := st3) ?_ (e4.trans e5))
      refine Eq.trans e3 ?_
      simp only [if_true]
      split <;> rfl
  · simp only [tableEmptyW, Res.bind_eq_ok, Res.pure_eq] at h
    obtain ⟨_, _, st1, h1, h2⟩ := h
    cases h2
    have := nlW_tables h1
    exact this
  · cases ht : t.template c with
    | some fms =>
      rw [ht] at h
      exact runAll_tables (fun _ _ _ => runFm_tables hf hr) h
    | none =>
      rw [ht] at h
      simp only [Res.bind_eq_ok, Res.pure_eq] at h
      obtain ⟨⟨st1, b⟩, h1, h2⟩ := h
      cases h2
      exact listW_tables hf hr h1

theorem onelineCfg_force {c tc : Config} {t : Tag} {span : Loc} {st : St} (hf : c.bool .forceSingleLineTable ≠ some true)
    (h : onelineCfg c t span st = some tc) :
    tc.bool .forceSingleLineTable ≠ some true ∧ ∀ a b, t ≠ .tableConstructor a b := by
  unfold onelineCfg at h
  split at h
  · split at h
    · next hc =>
      simp only [Bool.and_eq_true, beq_iff_eq] at hc
      exact absurd hc.1.2 hf
    · cases h
  · next hn =>
    refine ⟨?_, fun a b e => hn a b e⟩
    split at h
    · split at h
      · cases h; exact hf
      · cases h
    · split at h
      · split at h
        · cases h; exact hf
        · cases h
      · cases h

theorem armW_tables {env : Env} {c : Config} (hf : c.bool .forceSingleLineTable ≠ some true) {t : Tag} {span : Loc} {locs : List Loc}
    {rs : List R} (hr : ∀ r ∈ rs, KeepsTables r) {st st' : St} (h : armW env t span locs rs c st = .ok st') :
    SameTables st st' := by
  unfold armW at h
  split at h
  · exact plainW_tables hf hr h
  · next tc htc =>
    obtain ⟨hf', ht⟩ := onelineCfg_force hf htc
    simp only [Res.bind_eq_ok] at h
    obtain ⟨⟨st1, x⟩, h1, h2⟩ := h
    have e1 := testOnelineNoNl_tables (fun _ _ h => plainW_tables hf' hr h) h1
    cases x with
    | none => exact e1.trans (plainW_tables hf hr h2)
    | some line =>
      simp only [Res.pure_eq] at h2
      cases h2
      refine e1.trans ?_
      cases t <;> first | rfl | exact absurd rfl (ht _ _)

theorem runSh_tables {env : Env} {c : Config} (hf : c.bool .forceSingleLineTable ≠ some true) {locs : List Loc} {rs : List R}
    (hr : ∀ r ∈ rs, KeepsTables r) {e : Sh} {st st' : St} (h : runSh env locs rs c e st = .ok st') : SameTables st st' := by
  cases e with
  | lit s => cases h; rfl
  | gap i => exact locW_tables h
  | kid i => exact kidW_tables hf hr h

theorem writeW_tables {env : Env} {c : Config} (hf : c.bool .forceSingleLineTable ≠ some true) {t : Tag} {span : Loc} {locs : List Loc}
    {rs : List R} (hr : ∀ r ∈ rs, KeepsTables r) {st st' : St} (h : writeW env t span locs rs c st = .ok st') :
    SameTables st st' := by
  unfold writeW at h
  cases hl : t.leafText with
  | some s => rw [hl] at h; cases h; rfl
  | none =>
    rw [hl] at h
    simp only at h
    split at h
    · exact locW_tables h
    · cases hs : t.shape with
      | some sh =>
        rw [hs] at h
        simp only at h
        split at h
        · exact runAll_tables (fun _ _ _ => runSh_tables hf hr) h
        · exact armW_tables hf hr h
      | none => rw [hs] at h; exact armW_tables hf hr h

mutual
/-- No construct remembers a table without `force_single_line_table`. -/
theorem mkR_tables (env : Env) : ∀ n, KeepsTables (mkR env n)
  | .mk tag span locs kids =>
    have hr := mkRs_tables env kids
    ⟨fun _ _ _ hf h => writeW_tables hf hr h, fun _ _ _ _ hf h => listW_tables hf hr h,
      fun _ _ _ hf h => runAll_tables (fun _ _ _ => runEl_tables hf hr) h⟩
theorem mkRs_tables (env : Env) : ∀ ns, ∀ r ∈ mkRs env ns, KeepsTables r
  | [], _, h => by cases h
  | n :: ns, r, h => by
    rcases List.mem_cons.1 h with rfl | h
    · exact mkR_tables env n
    · exact mkRs_tables env ns r h
end

/-- Without `force_single_line_table` no table is remembered as written on one line. -/
def FreshTables (c : Config) (st : St) : Prop := c.bool .forceSingleLineTable ≠ some true → ∀ p, st.cells.oneline p = false

theorem Variant.force {c c' : Config} (hv : Variant c c') (h : c.bool .forceSingleLineTable ≠ some true) :
    c'.bool .forceSingleLineTable ≠ some true := by
  rwa [hv.bool .forceSingleLineTable (by unfold SwitchedB; decide)]

theorem FreshTables.same {c : Config} {st st' : St} (h : FreshTables c st) (hs : c.bool .forceSingleLineTable ≠ some true → SameTables st st') :
    FreshTables c st' := fun hf p => by rw [hs hf]; exact h hf p

end Luafmt
