import Verif.Proofs.Items

/-
The printer prints a rendering of the items of a node and leaves the indentation state as it was.
-/
namespace Luafmt

variable {L : Prop}

/-- The indentation state. -/
def St.ctx (st : St) : Int × List (Option Str) × Int := (st.lvl, st.stack, st.fn)

/-- Equal up to the cells of the tree. -/
def Same (st st' : St) : Prop := st'.f = st.f ∧ st'.ctx = st.ctx

theorem Same.refl (st : St) : Same st st := ⟨rfl, rfl⟩
theorem Same.trans {a b c : St} (h : Same a b) (h' : Same b c) : Same a c :=
  ⟨h'.1.trans h.1, h'.2.trans h.2⟩

/-- A writer that renders items. -/
def WSpec (L : Prop) (env : Env) (c : Config) (w : Config → W) (is : List Item) : Prop :=
  ∀ c' st st', Variant c c' → w c' st = .ok st' → st'.ctx = st.ctx ∧ Emits L env c is st.f st'.f

/-! ### Tests change only the cells -/

theorem testOneline_ok {c : Config} {w : Config → W} {st st1 : St} {r : Option Str}
    (h : testOneline c w st = .ok (st1, r)) :
    Same st st1 ∧ ∀ s, r = some s → ∃ st', w c { st with f := [] } = .ok st' ∧ s = st'.f := by
  unfold testOneline at h
  split at h
  · cases h
  · cases h
    exact ⟨.refl _, fun s hs => by cases hs⟩
  · next st' hw =>
    split at h
    · cases h
    · cases h
      refine ⟨⟨rfl, rfl⟩, ?_⟩
      intro s hs
      split at hs
      · cases hs; exact ⟨st', hw, rfl⟩
      · cases hs

theorem testOnelineNoNl_ok {c : Config} {w : Config → W} {st st1 : St} {r : Option Str}
    (h : testOnelineNoNl c w st = .ok (st1, r)) :
    Same st st1 ∧ ∀ s, r = some s → hasNewlines s = false ∧
      ∃ st', w c { st with f := [] } = .ok st' ∧ s = st'.f := by
  simp only [testOnelineNoNl, Res.bind_eq_ok, Res.pure_eq] at h
  obtain ⟨⟨st2, r2⟩, h2, h3⟩ := h
  cases h3
  obtain ⟨hs, hr⟩ := testOneline_ok h2
  refine ⟨hs, ?_⟩
  intro s hs
  cases r2 with
  | none => cases hs
  | some t =>
    simp only at hs
    split at hs
    · cases hs
    · next hn =>
      cases hs
      exact ⟨by simpa using hn, hr _ rfl⟩

/-- A text that has passed the one-line test ends before the width. -/
theorem testOnelineNoNl_width {c : Config} {w : Config → W} {st st1 : St} {s : Str}
    (h : testOnelineNoNl c w st = .ok (st1, some s)) :
    ∃ m, c.num .maxWidth = some m ∧ lenAfterNewline st.f + lenTillNewline s < m := by
  simp only [testOnelineNoNl, Res.bind_eq_ok, Res.pure_eq] at h
  obtain ⟨⟨st2, r2⟩, h2, h3⟩ := h
  unfold testOneline at h2
  split at h2
  · cases h2
  · cases h2; cases h3
  · split at h2
    · cases h2
    · next m hm =>
      split at h2
      · next hlt =>
        cases h2
        simp only [Res.ok.injEq, Prod.mk.injEq] at h3
        obtain ⟨_, h3⟩ := h3
        split at h3
        · cases h3
        · cases h3; exact ⟨m, hm, hlt⟩
      · cases h2; cases h3

theorem bind_pair {α β : Type} {x : Res (St × α)} {g : α → β} {st' : St} {b : β}
    (h : (do let (s, a) ← x; pure (s, g a)) = Res.ok (st', b)) : ∃ a, x = .ok (st', a) ∧ b = g a := by
  simp only [Res.bind_eq_ok, Res.pure_eq] at h
  obtain ⟨⟨s, a⟩, h1, h2⟩ := h
  cases h2
  exact ⟨a, h1, rfl⟩

theorem testOnelineField_same {c : Config} {r : R} {st st1 : St} {x : Option Str}
    (h : testOnelineField c r st = .ok (st1, x)) : Same st st1 := by
  unfold testOnelineField at h
  split at h
  all_goals first
    | (cases h; exact .refl _)
    | (split at h
       · exact (testOnelineNoNl_ok h).1
       · cases h; exact .refl _)

theorem needNewlineField_same {c : Config} {iv : Option Bool} {prev : Node} {r : R} {st st1 : St} {b : Bool}
    (h : needNewlineField c iv prev r st = .ok (st1, b)) : Same st st1 := by
  unfold needNewlineField at h
  repeat' split at h
  all_goals first
    | (cases h; exact .refl _)
    | (obtain ⟨a, ha, _⟩ := bind_pair h; exact (testOnelineNoNl_ok ha).1)
    | (obtain ⟨a, ha, _⟩ := bind_pair h; exact testOnelineField_same ha)

theorem needNewlineSuffix_same {c : Config} {r : R} {st st1 : St} {b : Bool}
    (h : needNewlineSuffix c r st = .ok (st1, b)) : Same st st1 := by
  unfold needNewlineSuffix at h
  simp only at h
  repeat' split at h
  all_goals first
    | (cases h; exact .refl _)
    | (obtain ⟨a, ha, _⟩ := bind_pair h; exact (testOneline_ok ha).1)

theorem needNewline_same {c : Config} {p : Tag} {prev : Node} {r : R} {st st1 : St} {b : Bool}
    (h : needNewline c p prev r st = .ok (st1, b)) : Same st st1 := by
  unfold needNewline at h
  split at h
  case h_2 =>
    generalize (match r.node.tag with | .tableConstructor _ _ => true | _ => false) = isTable at h
    simp only at h
    repeat' split at h
    all_goals first
      | (cases h; exact .refl _)
      | (obtain ⟨a, ha, _⟩ := bind_pair h; exact (testOneline_ok ha).1)
  all_goals repeat' split at h
  all_goals first
    | (cases h; exact .refl _)
    | (exact needNewlineField_same h)
    | (exact needNewlineSuffix_same h)
    | (obtain ⟨a, ha, _⟩ := bind_pair h; exact (testOneline_ok ha).1)

theorem needFirstNewline_same {c : Config} {p : Tag} {pos : Nat} {r : R} {st st1 : St} {b : Bool}
    (h : needFirstNewline c p pos r st = .ok (st1, b)) : Same st st1 := by
  unfold needFirstNewline at h
  repeat' split at h
  all_goals first
    | (cases h; exact .refl _)
    | (exact needNewlineSuffix_same h)
    | (obtain ⟨a, ha, _⟩ := bind_pair h; exact testOnelineField_same ha)
    | (obtain ⟨a, ha, _⟩ := bind_pair h; exact (testOneline_ok ha).1)

theorem nlOpt_of_num {c : Config} {o : NOpt} (h : (c.num o).isSome = true) (ha : ∀ n, Spec.asksLines o n = true := by exact fun _ => rfl) :
    NlOpt c := by
  cases e : c.num o with
  | none => rw [e] at h; cases h
  | some n => exact .inl ⟨o, n, e, ha n⟩

theorem nlOpt_of_eq {c : Config} {o : NOpt} {n : Nat} (h : c.num o = some n) (ha : Spec.asksLines o n = true := by rfl) : NlOpt c :=
  .inl ⟨o, n, h, ha⟩

theorem needNewlineField_opt {c : Config} {iv : Option Bool} {prev : Node} {r : R} {st st1 : St} {b : Bool}
    (h : needNewlineField c iv prev r st = .ok (st1, b)) (hb : b = true) : NlOpt c := by
  unfold needNewlineField at h
  split at h
  · next hn => exact nlOpt_of_num hn
  · cases h; cases hb

theorem needNewlineSuffix_opt {c : Config} {r : R} {st st1 : St} {b : Bool}
    (h : needNewlineSuffix c r st = .ok (st1, b)) (hb : b = true) : NlOpt c := by
  by_cases hn : (c.num .newlineFormatVarSuffix).isSome = true
  · exact nlOpt_of_num hn
  · unfold needNewlineSuffix at h
    simp only [if_neg hn] at h
    split at h <;> (cases h; cases hb)

theorem needNewline_opt {c : Config} {t : Tag} {prev : Node} {r : R} {st st1 : St} {b : Bool}
    (h : needNewline c t prev r st = .ok (st1, b)) (hb : b = true) : NlOpt c := by
  unfold needNewline at h
  split at h
  · cases h; exact nlOpt_of_num hb
  · simp only at h
    by_cases h1 : c.bool .writeNewlineAtExplistMultilineTable = some true
    · exact .inr (.inr (.inr h1))
    · by_cases h2 : c.num .newlineFormatExpList = some 1
      · exact nlOpt_of_eq h2
      · simp only [if_neg h2, h1, false_and, and_false, if_false] at h
        cases h; cases hb
  · cases h; exact nlOpt_of_eq (of_decide_eq_true hb)
  · exact needNewlineField_opt h hb
  · exact needNewlineSuffix_opt h hb
  · cases h; cases hb

theorem needFirstNewline_opt {c : Config} {t : Tag} {pos : Nat} {r : R} {st st1 : St} {b : Bool}
    (h : needFirstNewline c t pos r st = .ok (st1, b)) (hb : b = true) : NlOpt c := by
  unfold needFirstNewline at h
  split at h
  · split at h
    · next hn => exact nlOpt_of_num hn
    · cases h; cases hb
  · split at h
    · next hn => exact nlOpt_of_eq hn
    · cases h; cases hb
  · exact needNewlineSuffix_opt h hb
  · cases h; cases hb

theorem askFirst_ok {c : Config} {t : Tag} {pos : Nat} {r : R} {st st1 : St} {b : Bool}
    (h : askFirst c t pos r st = .ok (st1, b)) : Same st st1 ∧ (b = true → NlOpt c) := by
  unfold askFirst at h
  split at h
  · next hn => exact ⟨needFirstNewline_same h, needFirstNewline_opt h⟩
  · cases h; exact ⟨.refl _, fun h => by cases h⟩

theorem askNext_ok {c : Config} {t : Tag} {prev : Node} {r : R} {st st1 : St} {b : Bool}
    (h : askNext c t prev r st = .ok (st1, b)) : Same st st1 ∧ (b = true → NlOpt c) := by
  unfold askNext at h
  split at h
  · next hn => exact ⟨needNewline_same h, needNewline_opt h⟩
  · cases h; exact ⟨.refl _, fun h => by cases h⟩

theorem testIndent_same {env : Env} {c : Config} {r : R} {loc : Loc} {x : Str} {st st1 : St} {b : Bool}
    (h : testIndent env c r loc x st = .ok (st1, b)) : Same st st1 := by
  unfold testIndent at h
  simp only at h
  repeat' split at h
  all_goals first
    | (cases h; done)
    | (cases h; exact ⟨rfl, rfl⟩)

/-! ### Gaps -/

theorem hintW_ok {env : Env} {c c' : Config} (hv : Variant c c') {loc : Loc} {x : Str} {st st' : St}
    (h : hintW env c' loc x st = .ok st') : st'.ctx = st.ctx ∧ PlainStep env c loc x st.f st'.f := by
  simp only [hintW, Res.bind_eq_ok, Res.pure_eq] at h
  obtain ⟨f, hf, h⟩ := h
  cases h
  exact ⟨rfl, hv.plainStep (b := false) (lvl := st.lvl) hf (fun h => by cases h)⟩

theorem nlW_ok {env : Env} {c c' : Config} (hv : Variant c c') {b : Bool} {loc : Loc} {x : Str} {st st' : St}
    (h : nlW env c' b loc x st = .ok st')
    (hb : b = true → NlOpt c) :
    st'.ctx = st.ctx ∧ PlainStep env c loc x st.f st'.f := by
  simp only [nlW, Res.bind_eq_ok, Res.pure_eq] at h
  obtain ⟨f, hf, h⟩ := h
  cases h
  exact ⟨rfl, hv.plainStep hf hb⟩

theorem nlW_gap {env : Env} {c c' : Config} (hv : Variant c c') {b : Bool} {loc : Loc} {x : Str} {st st' : St}
    (h : nlW env c' b loc x st = .ok st')
    (hb : b = true → NlOpt c ∨ ∃ t, commentHint env c st.lvl loc x [] = .ok t ∧ hasNewlines t = true) :
    st'.ctx = st.ctx ∧ GapStep env c loc x st.f st'.f := by
  simp only [nlW, Res.bind_eq_ok, Res.pure_eq] at h
  obtain ⟨f, hf, h⟩ := h
  cases h
  exact ⟨rfl, hv.gapStep hf hb⟩

theorem locW_ok {env : Env} {loc : Loc} {st st' : St} (h : locW env loc st = .ok st') :
    st'.ctx = st.ctx ∧ ∃ s, substr env.buf loc env.buf 0 = .ok s ∧ st'.f = st.f ++ s := by
  simp only [locW, Res.bind_eq_ok, Res.pure_eq] at h
  obtain ⟨s, hs, h⟩ := h
  cases h
  exact ⟨rfl, s, hs, rfl⟩

theorem outOfRange_ne {r : Option (Nat × Nat)} {l : Loc} (h : outOfRange r l = true) : r ≠ none := by
  intro e; rw [e] at h; cases h

theorem notContained_ne {r : Option (Nat × Nat)} {l : Loc} (h : notContained r l = true) : r ≠ none := by
  intro e; rw [e] at h; cases h

theorem Emits.gap1 {env : Env} {c : Config} {loc : Loc} {x f f' : Str} (h : PlainStep env c loc x f f') :
    Emits L env c [.gap loc x] f f' := .gap h .nil

/-! ### Lists -/

/-- The children of a list with their items. -/
inductive Kids (L : Prop) (env : Env) (c : Config) : List R → List (List Item) → Prop
  | nil : Kids L env c [] []
  | cons {r : R} {is : List Item} {rs : List R} {ks : List (List Item)} :
      WSpec L env c r.w is → Kids L env c rs ks → Kids L env c (r :: rs) (is :: ks)

theorem itemGap_ok {env : Env} {c c' : Config} (hv : Variant c c') {t : Tag} {prev : Node} {r : R} {gap : Loc}
    {x : Str} {st st' : St} {b : Bool} (h : itemGap env c' t prev r gap x st = .ok (st', b)) :
    st'.ctx = st.ctx ∧ Emits L env c [.gap gap x] st.f st'.f := by
  unfold itemGap at h
  split at h
  · next ho =>
    simp only [Res.bind_eq_ok, Res.pure_eq] at h
    obtain ⟨st1, h1, h2⟩ := h
    cases h2
    obtain ⟨e, s, hs, hf⟩ := locW_ok h1
    rw [hf]
    exact ⟨e, .gapRaw (outOfRange_ne ho) hs .nil⟩
  · simp only [Res.bind_eq_ok, Res.pure_eq] at h
    obtain ⟨⟨st1, nl⟩, h1, st2, h2, h3⟩ := h
    cases h3
    obtain ⟨hs, hn⟩ := askNext_ok h1
    obtain ⟨e, g⟩ := nlW_ok hv h2 (fun hb => hv.nlOpt (hn hb))
    rw [hs.1] at g
    exact ⟨e.trans hs.2, .gap1 g⟩

theorem separator_variant {c c' : Config} (hv : Variant c c') (t : Tag) : separator c' t = separator c t := by
  cases t <;> simp only [separator, hv.str]

theorem trailingSeparator_ok {c c' : Config} (hv : Variant c c') {t : Tag} {ss : List Str} (ht : t.seps = some ss)
    (pos : Nat) (st : St) (src : Str) :
    TrailOk c t.isFields src (decide
      (trailingSeparator c' t pos st = none ∧ src ≠ [] ∨ trailingSeparator c' t pos st = some true)) := by
  have key : (t.isFields = true ∧ ((trailingSeparator c' t pos st = some false ∧
        c.bool .forceSingleLineTable = some true) ∨
        trailingSeparator c' t pos st = c'.bool .writeTrailingFieldSeparator)) ∨
      (t.isFields = false ∧ trailingSeparator c' t pos st = some false) := by
    cases t <;> simp only [Tag.seps, reduceCtorEq] at ht
    case fields seps iv single =>
      refine .inl ⟨rfl, ?_⟩
      have hforce := hv.boolEq (o := .forceSingleLineTable) (by decide)
      simp only [trailingSeparator]
      split
      · next hcond => exact .inl ⟨rfl, hforce ▸ hcond.1⟩
      · exact .inr rfl
    all_goals exact .inr ⟨rfl, rfl⟩
  generalize trailingSeparator c' t pos st = tr at key ⊢
  unfold TrailOk
  rcases key with ⟨hf, ⟨rfl, hc⟩ | rfl⟩ | ⟨hf, rfl⟩
  · simp [hf, hc]
  · simp only [hf, if_true]
    rcases hv.boolOff .writeTrailingFieldSeparator (.inl rfl) with e | ⟨e, hc⟩
    · left
      simp only [e]
      cases c.bool .writeTrailingFieldSeparator with
      | none => simp
      | some v => cases v <;> simp
    · right
      simp [e, hc]
  · simp [hf]

theorem sepRest_ok {env : Env} {c c' : Config} (hv : Variant c c') {t : Tag} {ss : List Str}
    (ht : t.seps = some ss) (pos : Nat) :
    ∀ (seps : List Str) (locs : List Loc) (rs : List R) (ks : List (List Item)) (last : SepItem) (ind : Bool)
      (st st' : St) (b : Bool), Kids L env c rs ks →
    sepRest env c' t pos last (sepItems locs rs seps) ind st = .ok (st', b) →
    st'.ctx = st.ctx ∧ Emits L env c
      (if (sepIs c t (elementHint t) locs ks seps).isEmpty
        then [.trail t.isFields last.sep ((separator c t).getD last.sep)]
        else .lit last.sep ((separator c t).getD last.sep) :: sepIs c t (elementHint t) locs ks seps)
      st.f st'.f := by
  have base : ∀ (last : SepItem) (ind : Bool) (st st' : St) (b : Bool),
      sepRest env c' t pos last [] ind st = .ok (st', b) →
      st'.ctx = st.ctx ∧ Emits L env c [.trail t.isFields last.sep ((separator c t).getD last.sep)] st.f st'.f := by
    intro last ind st st' b h
    simp only [sepRest] at h
    have hok := trailingSeparator_ok hv ht pos st last.sep
    split at h
    · next hc =>
      cases h
      refine ⟨rfl, .trail _ hok ?_⟩
      rw [decide_eq_true hc]
      simp only [if_true, St.put, getSep, separator_variant hv]
      exact .nil
    · next hc =>
      cases h
      refine ⟨rfl, .trail _ hok ?_⟩
      rw [decide_eq_false hc]
      exact .nil
  intro seps
  induction seps with
  | nil =>
    intro locs rs ks last ind st st' b hk h
    have e1 : sepItems locs rs [] = [] := by
      cases locs with
      | nil => rfl
      | cons a l => cases l <;> cases rs <;> rfl
    have e2 : sepIs c t (elementHint t) locs ks [] = [] := by
      cases locs with
      | nil => rfl
      | cons a l => cases l <;> cases ks <;> rfl
    rw [e1] at h
    rw [e2]
    exact base _ _ _ _ _ h
  | cons s seps ih =>
    intro locs rs ks last ind st st' b hk h
    match locs, hk with
    | [], _ => exact base _ _ _ _ _ h
    | [_], _ => exact base _ _ _ _ _ h
    | _ :: _ :: _, .nil => exact base _ _ _ _ _ h
    | pre :: post :: ls, .cons (r := r) (is := k) (rs := rs) (ks := ks) hr hk =>
      simp only [sepItems, sepRest, Res.bind_eq_ok] at h
      obtain ⟨⟨st1, nl⟩, h1, st2, h2, st3, h3, h4⟩ := h
      obtain ⟨e1, g1⟩ := itemGap_ok hv h1
      obtain ⟨e2, g2⟩ := hr _ _ _ hv h2
      obtain ⟨e3, g3⟩ := hintW_ok hv h3
      obtain ⟨e4, g4⟩ := ih ls rs ks _ _ _ _ _ hk h4
      refine ⟨e4.trans (e3.trans (e2.trans (e1.trans rfl))), ?_⟩
      have hne : (sepIs c t (elementHint t) (pre :: post :: ls) (k :: ks) (s :: seps)).isEmpty = false := rfl
      simp only [hne]
      refine .lit ?_
      simp only [sepIs]
      have g1' : Emits L env c [.gap pre (elementHint t)] (st.f ++ (separator c t).getD last.sep) st1.f := by
        simpa only [St.put, getSep, separator_variant hv] using g1
      refine (g1'.append (g2.append (Emits.append (.gap1 g3) g4)) :)

theorem sepList_ok {env : Env} {c c' : Config} (hv : Variant c c') {t : Tag} {ss : List Str}
    (ht : t.seps = some ss) (pos : Nat) (seps : List Str) (locs : List Loc) (rs : List R) (ks : List (List Item))
    (st st' : St) (b : Bool) (hk : Kids L env c rs ks)
    (h : sepList env c' t pos (sepItems locs rs seps) st = .ok (st', b)) :
    st'.ctx = st.ctx ∧ Emits L env c (sepIs c t [] locs ks seps) st.f st'.f := by
  match seps, locs, hk with
  | [], [], _ => cases h; exact ⟨rfl, .nil⟩
  | [], [_], _ => cases h; exact ⟨rfl, .nil⟩
  | [], _ :: _ :: _, .nil => cases h; exact ⟨rfl, .nil⟩
  | [], _ :: _ :: _, .cons _ _ => cases h; exact ⟨rfl, .nil⟩
  | _ :: _, [], _ => cases h; exact ⟨rfl, .nil⟩
  | _ :: _, [_], _ => cases h; exact ⟨rfl, .nil⟩
  | _ :: _, _ :: _ :: _, .nil => cases h; exact ⟨rfl, .nil⟩
  | s :: seps, pre :: post :: ls, .cons (r := r) (is := k) (rs := rs) (ks := ks) hr hk =>
    simp only [sepItems, sepList, Res.bind_eq_ok] at h
    obtain ⟨⟨st1, nl⟩, h1, st2, h2, st3, h3, st4, h4, h5⟩ := h
    obtain ⟨hs, hn⟩ := askFirst_ok h1
    obtain ⟨e2, g2⟩ := nlW_ok hv h2 (fun hb => hv.nlOpt (hn hb))
    obtain ⟨e3, g3⟩ := hr _ _ _ hv h3
    obtain ⟨e4, g4⟩ := hintW_ok hv h4
    obtain ⟨e5, g5⟩ := sepRest_ok hv ht pos seps ls rs ks _ _ _ _ _ hk h5
    rw [hs.1] at g2
    refine ⟨e5.trans (e4.trans (e3.trans (e2.trans hs.2))), ?_⟩
    simp only [sepIs]
    exact ((Emits.gap1 g2).append (g3.append (Emits.append (.gap1 g4) g5)) :)

theorem listRest_ok {env : Env} {c c' : Config} (hv : Variant c c') (t : Tag) :
    ∀ (locs : List Loc) (rs : List R) (ks : List (List Item)) (prev : Node) (ind : Bool) (st st' : St) (b : Bool),
    Kids L env c rs ks → listRest env c' t prev (locs.zip rs) ind st = .ok (st', b) →
    st'.ctx = st.ctx ∧ Emits L env c (plainIs locs ((rs.map (·.node.tag)).zip ks)) st.f st'.f := by
  intro locs
  induction locs with
  | nil =>
    intro rs ks prev ind st st' b hk h
    cases h
    exact ⟨rfl, .nil⟩
  | cons l ls ih =>
    intro rs ks prev ind st st' b hk h
    cases hk with
    | nil => cases h; exact ⟨rfl, .nil⟩
    | cons hr hk =>
      simp only [List.zip_cons_cons, listRest, Res.bind_eq_ok] at h
      obtain ⟨⟨st1, nl⟩, h1, st2, h2, h3⟩ := h
      obtain ⟨e1, g1⟩ := itemGap_ok hv h1
      obtain ⟨e2, g2⟩ := hr _ _ _ hv h2
      obtain ⟨e3, g3⟩ := ih _ _ _ _ _ _ _ hk h3
      exact ⟨e3.trans (e2.trans e1), (g1.append (g2.append g3) :)⟩

theorem plainList_ok {env : Env} {c c' : Config} (hv : Variant c c') (t : Tag) (pos : Nat)
    (locs : List Loc) (rs : List R) (ks : List (List Item)) (st st' : St) (b : Bool) (hk : Kids L env c rs ks)
    (h : plainList env c' t pos (locs.zip rs) st = .ok (st', b)) :
    st'.ctx = st.ctx ∧ Emits L env c (plainIs0 locs ((rs.map (·.node.tag)).zip ks)) st.f st'.f := by
  match locs, hk with
  | [], _ => cases h; exact ⟨rfl, .nil⟩
  | _ :: _, .nil => cases h; exact ⟨rfl, .nil⟩
  | l :: ls, .cons hr hk =>
    simp only [List.zip_cons_cons, plainList, Res.bind_eq_ok] at h
    obtain ⟨⟨st1, nl⟩, h1, st2, h2, st3, h3, h4⟩ := h
    obtain ⟨hs, hn⟩ := askFirst_ok h1
    obtain ⟨e2, g2⟩ := nlW_ok hv h2 (fun hb => hv.nlOpt (hn hb))
    obtain ⟨e3, g3⟩ := hr _ _ _ hv h3
    obtain ⟨e4, g4⟩ := listRest_ok hv t _ _ _ _ _ _ _ _ hk h4
    rw [hs.1] at g2
    exact ⟨e4.trans (e3.trans (e2.trans hs.2)), ((Emits.gap1 g2).append (g3.append g4) :)⟩

/-! ### Templates -/

abbrev Ctx := Int × List (Option Str) × Int

/-- The effect of an argument on the indentation state. -/
def El.eff : El → Ctx → Ctx
  | .inc, x => (x.1 + 1, none :: x.2.1, x.2.2)
  | .dec, x => (if x.2.1.head? == some none || x.2.1.tail.head? != x.2.1.head? then x.1 - 1 else x.1,
      x.2.1.tail, x.2.2)
  | .incF, x => (x.1, x.2.1, x.2.2 + 1)
  | .decF, x => (x.1, x.2.1, x.2.2 - 1)
  | _, x => x

def Fm.eff : Fm → Ctx → Ctx
  | .el e, x => e.eff x
  | .ind _ _ _ _, x => x

/-- Newlines only if an option asks for them. -/
def El.ok (c : Config) : El → Prop
  | .nl b _ _ => b = true → NlOpt c
  | _ => True

def El.plain : El → Bool
  | .inc | .dec | .incF | .decF => false
  | _ => true

def Fm.ok (c : Config) : Fm → Prop
  | .el e => e.ok c
  | .ind _ _ _ body => ∀ e ∈ body, e.ok c ∧ e.plain = true

theorem kid_ok {env : Env} {c c' : Config} (hv : Variant c c') {rs : List R} {ks : List (List Item)}
    (hk : Kids L env c rs ks) {i : Nat} {st st' : St} (h : kidW rs i c' st = .ok st') :
    st'.ctx = st.ctx ∧ Emits L env c (ks[i]?.getD []) st.f st'.f := by
  induction hk generalizing i with
  | nil => simp [kidW] at h
  | cons hr _ ih =>
    cases i with
    | zero =>
      simp only [kidW, List.getElem?_cons_zero] at h
      simpa using hr _ _ _ hv h
    | succ i =>
      have := ih (i := i) (by simpa only [kidW, List.getElem?_cons_succ] using h)
      simpa using this

theorem runEl_ok {env : Env} {c c' : Config} (hv : Variant c c') {locs : List Loc} {rs : List R}
    {ks : List (List Item)} (hk : Kids L env c rs ks) {e : El} (he : e.ok c') {st st' : St}
    (h : runEl env locs rs c' e st = .ok st') :
    st'.ctx = e.eff st.ctx ∧ Emits L env c (e.slots.flatMap (slotItems locs ks)) st.f st'.f := by
  cases e with
  | lit s =>
    cases h
    exact ⟨rfl, .lit .nil⟩
  | hint i x =>
    obtain ⟨a, b⟩ := hintW_ok hv h
    exact ⟨a, .gap1 b⟩
  | nl b i x =>
    obtain ⟨a, b⟩ := nlW_ok hv h (fun hb => hv.nlOpt (he hb))
    exact ⟨a, .gap1 b⟩
  | kid i =>
    obtain ⟨a, b⟩ := kid_ok hv hk h
    refine ⟨a, ?_⟩
    simpa [El.slots, slotItems] using b
  | inc => cases h; exact ⟨by simp [St.ctx, incIndent, El.eff], .nil⟩
  | dec => cases h; exact ⟨by simp [St.ctx, decIndent, El.eff], .nil⟩
  | incF => cases h; exact ⟨rfl, .nil⟩
  | decF => cases h; exact ⟨rfl, .nil⟩

theorem runEls_ok {env : Env} {c c' : Config} (hv : Variant c c') {locs : List Loc} {rs : List R}
    {ks : List (List Item)} (hk : Kids L env c rs ks) : ∀ {es : List El}, (∀ e ∈ es, e.ok c') → ∀ {st st' : St},
    runAll (runEl env locs rs c') es st = .ok st' →
    st'.ctx = es.foldl (fun x e => e.eff x) st.ctx ∧
      Emits L env c ((es.flatMap El.slots).flatMap (slotItems locs ks)) st.f st'.f := by
  intro es
  induction es with
  | nil => intro _ st st' h; cases h; exact ⟨rfl, .nil⟩
  | cons e es ih =>
    intro he st st' h
    simp only [runAll, Res.bind_eq_ok] at h
    obtain ⟨st1, h1, h2⟩ := h
    obtain ⟨a1, b1⟩ := runEl_ok hv hk (he e (by simp)) h1
    obtain ⟨a2, b2⟩ := ih (fun e h => he e (by simp [h])) h2
    refine ⟨?_, ?_⟩
    · rw [a2, a1]; rfl
    · simpa [List.flatMap_append] using b1.append b2

theorem plain_eff {es : List El} (h : ∀ e ∈ es, e.plain = true) (x : Ctx) :
    es.foldl (fun x e => e.eff x) x = x := by
  induction es with
  | nil => rfl
  | cons e es ih =>
    have h1 := h e (by simp)
    have : e.eff x = x := by cases e <;> first | rfl | cases h1
    simp only [List.foldl_cons, this]
    exact ih (fun e he => h e (by simp [he]))

theorem runFm_ok {env : Env} {c c' : Config} (hv : Variant c c') {locs : List Loc} {rs : List R}
    {ks : List (List Item)} (hk : Kids L env c rs ks) {m : Fm} (hm : m.ok c') {st st' : St}
    (h : runFm env locs rs c' m st = .ok st') :
    st'.ctx = m.eff st.ctx ∧ Emits L env c (m.slots.flatMap (slotItems locs ks)) st.f st'.f := by
  cases m with
  | el e => exact runEl_ok hv hk hm h
  | ind k i x body =>
    simp only [runFm] at h
    split at h
    · cases h
    · next r hr =>
      simp only [Res.bind_eq_ok, Res.pure_eq] at h
      obtain ⟨⟨st1, ind⟩, h1, st2, h2, h3⟩ := h
      have hs := testIndent_same h1
      obtain ⟨a, b⟩ := runEls_ok hv hk (fun e he => (hm e he).1) h2
      rw [plain_eff (fun e he => (hm e he).2)] at a
      cases h3
      cases ind with
      | false =>
        simp only [Bool.false_eq_true, if_false] at a b ⊢
        rw [hs.1] at b
        exact ⟨a.trans hs.2, b⟩
      | true =>
        simp only [if_true] at a b ⊢
        have hf : (incIndent none st1).f = st.f := hs.1
        rw [hf] at b
        refine ⟨?_, b⟩
        have ha : st2.ctx = (st1.ctx.1 + 1, none :: st1.ctx.2.1, st1.ctx.2.2) := by
          rw [a]; simp [St.ctx, incIndent]
        rw [hs.2] at ha
        simp only [St.ctx, Prod.mk.injEq] at ha
        simp only [St.ctx, decIndent, ha.1, ha.2.1, ha.2.2, Fm.eff]
        simp [Int.add_sub_cancel]

theorem runFms_ok {env : Env} {c c' : Config} (hv : Variant c c') {locs : List Loc} {rs : List R}
    {ks : List (List Item)} (hk : Kids L env c rs ks) : ∀ {ms : List Fm}, (∀ m ∈ ms, m.ok c') → ∀ {st st' : St},
    runAll (runFm env locs rs c') ms st = .ok st' →
    st'.ctx = ms.foldl (fun x m => m.eff x) st.ctx ∧
      Emits L env c ((ms.flatMap Fm.slots).flatMap (slotItems locs ks)) st.f st'.f := by
  intro ms
  induction ms with
  | nil => intro _ st st' h; cases h; exact ⟨rfl, .nil⟩
  | cons m ms ih =>
    intro he st st' h
    simp only [runAll, Res.bind_eq_ok] at h
    obtain ⟨st1, h1, h2⟩ := h
    obtain ⟨a1, b1⟩ := runFm_ok hv hk (he m (by simp)) h1
    obtain ⟨a2, b2⟩ := ih (fun e h => he e (by simp [h])) h2
    refine ⟨?_, ?_⟩
    · rw [a2, a1]; rfl
    · simpa [List.flatMap_append] using b1.append b2

/-- Each template leaves the indentation state as it was and has newlines only if an option asks for them. -/
theorem template_ok {c : Config} {t : Tag} {ms : List Fm} (h : t.template c = some ms) :
    (∀ m ∈ ms, m.ok c) ∧ ∀ x, ms.foldl (fun x m => m.eff x) x = x := by
  cases t <;> simp only [Tag.template, reduceCtorEq, Option.some.injEq] at h
  all_goals subst h
  all_goals refine ⟨?_, ?_⟩
  all_goals first
    | (intro x; simp [Fm.eff, El.eff, Int.add_sub_cancel]; done)
    | (simp [Fm.ok, El.ok, El.plain]; done)
    | (simp only [List.forall_mem_cons, Fm.ok, El.ok, El.plain, true_and, and_true, List.not_mem_nil,
        false_implies, implies_true, decide_eq_true_eq]
       first
        | (exact fun h => nlOpt_of_eq h)
        | (exact fun h => nlOpt_of_num h)
        | (exact fun h => .inr (.inl h))
        | (refine ⟨?_, ?_⟩ <;> exact fun h => nlOpt_of_eq h)
        | (refine ⟨?_, ?_, ?_⟩ <;> exact fun h => nlOpt_of_eq h)
        | (refine ⟨?_, ?_, ?_, ?_⟩ <;> exact fun h => nlOpt_of_eq h)
        | (refine ⟨?_, ?_, ?_, ?_, ?_⟩ <;> exact fun h => nlOpt_of_eq h))

end Luafmt
