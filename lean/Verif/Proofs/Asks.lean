import Verif.Proofs.EmitAll
import Verif.Spec.Asked

/-
Where the printer begins lines of its own accord: only at places where an option asks for it. A second reading of the
printer without a range, beside that of `Verif.Proofs.EmitAll`: each gap of the output carries the reason for its newline.
-/
namespace Luafmt
open Spec

/-- One gap of the output; a newline is only asked for if `A` holds. -/
def AskStep (A : Int → Prop) (env : Env) (c : Config) (loc : Loc) (h : Str) (f f' : Str) : Prop :=
  ∃ (p f0 g : Str) (lvl : Int) (b : Bool), f = p ++ f0 ∧ f' = p ++ g ∧
    ifNewLine c lvl b (commentHint env c lvl loc) h f0 = .ok g ∧ (b = true → A lvl) ∧ (b = true → p = [])

/-- The gap of an empty table: a newline only if there is one in it. -/
def InTable (env : Env) (c : Config) (loc : Loc) (h : Str) (lvl : Int) : Prop :=
  ∃ t, commentHint env c lvl loc h [] = .ok t ∧ hasNewlines t = true

theorem AskStep.lift {A : Int → Prop} {env : Env} {c : Config} {loc : Loc} {h f f' : Str} (p : Str) (hn : '\n' ∉ f')
    (hs : AskStep A env c loc h f f') : AskStep A env c loc h (p ++ f) (p ++ f') := by
  obtain ⟨q, f0, g, lvl, b, rfl, rfl, h1, h2, _⟩ := hs
  refine ⟨p ++ q, f0, g, lvl, b, by simp, by simp, h1, h2, fun e => ?_⟩
  subst e
  exact absurd (List.mem_append_right _ (ifNewLine_newline h1)) hn

theorem AskStep.grows {A : Int → Prop} {env : Env} {c : Config} {loc : Loc} {h f f' : Str}
    (hs : AskStep A env c loc h f f') : Grows f f' := by
  obtain ⟨p, f0, g, lvl, b, rfl, rfl, h1, _⟩ := hs
  exact (ifNewLine_grows h1).lift p

/-- What is printed for the items, with the reason for every newline: `Q (some p)` for a gap before the position `p`,
`Q none` for the additional gap before the brace of a table. -/
inductive BEmits (Q : Option Nat → Prop) (env : Env) (c : Config) : List Item → Str → Str → Prop
  | nil {f : Str} : BEmits Q env c [] f f
  | lit {is : List Item} {src out f f' : Str} :
      BEmits Q env c is (f ++ out) f' → BEmits Q env c (.lit src out :: is) f f'
  | gap {is : List Item} {loc : Loc} {h f f1 f' : Str} : AskStep (fun _ => Q (some loc.r)) env c loc h f f1 →
      BEmits Q env c is f1 f' → BEmits Q env c (.gap loc h :: is) f f'
  | brace {is : List Item} {h f f1 f' : Str} : AskStep (fun _ => Q none) env c ⟨0, 0⟩ h f f1 →
      BEmits Q env c is (f1 ++ ['{']) f' → BEmits Q env c (.extra h :: .lit ['{'] ['{'] :: is) f f'
  | post {is : List Item} {loc : Loc} {isF : Bool} {src out f f1 f' : Str} (b : Bool) :
      AskStep (fun _ => False) env c loc [] f f1 → TrailOk c isF src b →
      BEmits Q env c is (if b then f1 ++ out else f1) f' → BEmits Q env c (.gap loc [] :: .trail isF src out :: is) f f'
  | emptyTable {is : List Item} {loc : Loc} {h f f1 f' : Str} : AskStep (InTable env c loc h) env c loc h (f ++ ['{']) f1 →
      BEmits Q env c is (f1 ++ ['}']) f' → BEmits Q env c (.lit ['{'] ['{'] :: .gap loc h :: .lit ['}'] ['}'] :: is) f f'

variable {Q : Option Nat → Prop} {env : Env} {c c' : Config}

theorem BEmits.grows {is : List Item} {f f' : Str} (h : BEmits Q env c is f f') : Grows f f' := by
  induction h with
  | nil => exact .refl _
  | lit _ ih => exact (Grows.append _ _).trans ih
  | gap hg _ ih => exact hg.grows.trans ih
  | brace hg _ ih => exact hg.grows.trans ((Grows.append _ _).trans ih)
  | post b hg _ _ ih =>
    refine hg.grows.trans (Grows.trans ?_ ih)
    cases b
    · exact .refl _
    · exact .append _ _
  | emptyTable hg _ ih => exact (Grows.append _ _).trans (hg.grows.trans ((Grows.append _ _).trans ih))

theorem BEmits.lift {is : List Item} {f f' : Str} (p : Str) (h : BEmits Q env c is f f') (hn : '\n' ∉ f') :
    BEmits Q env c is (p ++ f) (p ++ f') := by
  induction h with
  | nil => exact .nil
  | lit _ ih => exact .lit (by simpa using ih hn)
  | gap hg h ih => exact .gap (hg.lift p fun e => hn (h.grows.newline e)) (ih hn)
  | brace hg h ih =>
    exact .brace (hg.lift p fun e => hn (h.grows.newline (List.mem_append_left _ e))) (by simpa using ih hn)
  | post b hg ht h ih =>
    refine .post b (hg.lift p fun e => hn (h.grows.newline ?_)) ht ?_
    · cases b
      · exact e
      · exact List.mem_append_left _ e
    · cases b
      · exact ih hn
      · simpa using ih hn
  | emptyTable hg h ih =>
    have h1 := hg.lift p fun e => hn (h.grows.newline (List.mem_append_left _ e))
    rw [← List.append_assoc] at h1
    exact .emptyTable h1 (by simpa using ih hn)

theorem BEmits.append {is js : List Item} {f f1 f' : Str}
    (h : BEmits Q env c is f f1) (h' : BEmits Q env c js f1 f') : BEmits Q env c (is ++ js) f f' := by
  induction h with
  | nil => exact h'
  | lit _ ih => exact .lit (ih h')
  | gap hg _ ih => exact .gap hg (ih h')
  | brace hg _ ih => exact .brace hg (ih h')
  | post b hg ht _ ih => exact .post b hg ht (ih h')
  | emptyTable hg _ ih => exact .emptyTable hg (ih h')

/-! ### Variants -/

/-- A variant that does not mix the two options about tables. -/
structure Variant2 (c c' : Config) : Prop extends Variant c c' where
  tables : c'.bool .writeNewlineAtExplistMultilineTable = some true →
    c'.bool .writeNewlineAtMultilineTable = c.bool .writeNewlineAtMultilineTable

theorem Variant2.refl (c : Config) : Variant2 c c := ⟨.refl c, fun _ => rfl⟩

theorem Variant2.explist (h : Variant2 c c') (he : c'.bool .writeNewlineAtExplistMultilineTable = some true) :
    c.bool .writeNewlineAtExplistMultilineTable = some true := by
  rcases h.boolOff .writeNewlineAtExplistMultilineTable (by unfold SwitchedB; decide) with e | e
  · rw [← e]; exact he
  · rw [e.1] at he; cases he

theorem Variant2.multiline (h : Variant2 c c') (he : c'.bool .writeNewlineAtMultilineTable = some true) :
    c.bool .writeNewlineAtMultilineTable = some true := by
  rcases h.boolOff .writeNewlineAtMultilineTable (by unfold SwitchedB; decide) with e | e
  · rw [← e]; exact he
  · rw [e.1] at he; cases he

theorem Variant2.numSome (h : Variant2 c c') {o : NOpt} {n : Nat} (he : c'.num o = some n) : c.num o = some n := by
  by_cases hs : Switched o
  · rcases h.numOff o hs with e | e
    · rw [← e]; exact he
    · rw [e] at he; cases he
  · rw [← h.num o hs]; exact he

theorem Variant2.numNe (h : Variant2 c c') {o : NOpt} (he : c'.num o ≠ none) : c.num o ≠ none := by
  obtain ⟨n, hn⟩ := Option.ne_none_iff_exists'.1 he
  rw [h.numSome hn]
  simp

theorem Variant2.itemAsks (h : Variant2 c c') {t : Tag} {first : Bool} {n : Tag} (ha : ItemAsks c' t first n) :
    ItemAsks c t first n := by
  unfold ItemAsks at ha ⊢
  split at ha
  · exact ⟨ha.1, h.numNe ha.2⟩
  · exact ⟨ha.1, h.numSome ha.2⟩
  · exact h.numNe ha
  · rcases ha with ha | ⟨h1, h2, h3, h4⟩
    · exact .inl (h.numSome ha)
    · exact .inr ⟨h1, h2, h.explist h3, by rw [← h.tables h3]; exact h4⟩
  · exact ⟨h.numNe ha.1, ha.2⟩
  · exact ha

/-- The places of a construct where a newline may be written: those of the specification, and the end of the program. -/
def Place (c : Config) (t : Tag) (g : Nat) : Prop :=
  PlaceAsks c t g ∨ (t = .chunk ∧ g = 1 ∨ t = .sheBangChunk ∧ g = 2) ∧ c.bool .writeNewlineAtEof = some true

theorem Variant2.place (h : Variant2 c c') {t : Tag} {g : Nat} (ha : Place c' t g) : Place c t g := by
  refine ha.imp (fun ha => ?_) (fun ha => ⟨ha.1, by rw [← h.bool _ (by unfold SwitchedB; decide)]; exact ha.2⟩)
  rcases ha with ⟨o, ps, d, h1, h2, h3⟩ | ⟨h1, h2, h3⟩ | ⟨h1, h2, h3⟩ | ⟨h1, ⟨h2, h3⟩ | ⟨h2, h3⟩⟩
  · exact .inl ⟨o, ps, d, h1, h.numSome h2, h3⟩
  · exact .inr (.inl ⟨h1, h2, h.numNe h3⟩)
  · exact .inr (.inr (.inl ⟨h1, h2, h.numNe h3⟩))
  · exact .inr (.inr (.inr ⟨h1, .inl ⟨h2, h.numSome h3⟩⟩))
  · exact .inr (.inr (.inr ⟨h1, .inr ⟨h2, h.numSome h3⟩⟩))

/-! ### Gaps -/

/-- A writer that renders items. -/
def BSpec (Q : Option Nat → Prop) (env : Env) (c : Config) (w : Config → W) (is : List Item) : Prop :=
  ∀ c' st st', Variant2 c c' → w c' st = .ok st' → BEmits Q env c is st.f st'.f

theorem hintW_step {A : Int → Prop} (hv : Variant2 c c') {loc : Loc} {x : Str} {st st' : St} (h : hintW env c' loc x st = .ok st') :
    AskStep A env c loc x st.f st'.f := by
  simp only [hintW, Res.bind_eq_ok, Res.pure_eq] at h
  obtain ⟨f, hf, h⟩ := h
  cases h
  rw [hv.toVariant.commentHint] at hf
  refine ⟨[], st.f, f, st.lvl, false, rfl, rfl, ?_, fun h => (by cases h), fun _ => rfl⟩
  simpa [ifNewLine] using hf

theorem nlW_step {A : Int → Prop} (hv : Variant2 c c') {b : Bool} {loc : Loc} {x : Str} {st st' : St}
    (h : nlW env c' b loc x st = .ok st') (hb : b = true → A st.lvl) : AskStep A env c loc x st.f st'.f := by
  simp only [nlW, Res.bind_eq_ok, Res.pure_eq] at h
  obtain ⟨f, hf, h⟩ := h
  cases h
  rw [hv.toVariant.ifNewLine, hv.toVariant.commentHint] at hf
  exact ⟨[], st.f, f, st.lvl, b, rfl, rfl, hf, hb, fun _ => rfl⟩

theorem BEmits.gap1 {loc : Loc} {x f f' : Str} (h : AskStep (fun _ => Q (some loc.r)) env c loc x f f') :
    BEmits Q env c [.gap loc x] f f' := .gap h .nil

/-! ### Who asks -/

theorem needNewlineField_asks {iv : Option Bool} {prev : Node} {r : R} {st st1 : St} {b : Bool}
    (h : needNewlineField c iv prev r st = .ok (st1, b)) (hb : b = true) : c.num .newlineFormatTableField ≠ none := by
  unfold needNewlineField at h
  split at h
  · next hn => intro e; rw [e] at hn; cases hn
  · cases h; cases hb

theorem needNewlineSuffix_asks {r : R} {st st1 : St} {b : Bool} (h : needNewlineSuffix c r st = .ok (st1, b))
    (hb : b = true) : c.num .newlineFormatVarSuffix ≠ none ∧ (r.node.tag = .tableMember ∨ r.node.tag = .fnMethodCall) := by
  by_cases hn : (c.num .newlineFormatVarSuffix).isSome = true
  · refine ⟨fun e => (by rw [e] at hn; cases hn), ?_⟩
    unfold needNewlineSuffix at h
    simp only at h
    split at h
    · next e => exact .inl e
    · next e => exact .inr e
    · cases h; cases hb
  · unfold needNewlineSuffix at h
    simp only [if_neg hn] at h
    split at h <;> (cases h; cases hb)

theorem needNewline_asks {t : Tag} {prev : Node} {r : R} {st st1 : St} {b : Bool}
    (h : needNewline c t prev r st = .ok (st1, b)) (hb : b = true) : ItemAsks c t false r.node.tag := by
  unfold needNewline at h
  split at h
  · cases h
    exact ⟨rfl, fun e => by rw [e] at hb; cases hb⟩
  · simp only at h
    unfold ItemAsks
    simp only [Bool.false_eq_true, if_false]
    by_cases h2 : c.num .newlineFormatExpList = some 1
    · exact .inl h2
    · simp only [if_neg h2] at h
      split at h
      · next iv single e =>
        split at h
        · next hc => exact .inr ⟨trivial, ⟨iv, single, e⟩, hc.2.1, hc.2.2⟩
        · cases h; cases hb
      · rw [if_neg (by simp)] at h
        cases h; cases hb
  · cases h
    exact ⟨rfl, of_decide_eq_true hb⟩
  · exact needNewlineField_asks h hb
  · exact needNewlineSuffix_asks h hb
  · cases h; cases hb

theorem needFirstNewline_asks {t : Tag} {pos : Nat} {r : R} {st st1 : St} {b : Bool}
    (h : needFirstNewline c t pos r st = .ok (st1, b)) (hb : b = true) : ItemAsks c t true r.node.tag := by
  unfold needFirstNewline at h
  split at h
  · split at h
    · next hn => exact fun e => by rw [e] at hn; cases hn
    · cases h; cases hb
  · split at h
    · next hn => exact .inl hn
    · cases h; cases hb
  · exact needNewlineSuffix_asks h hb
  · cases h; cases hb

theorem askFirst_asks {t : Tag} {pos : Nat} {r : R} {st st1 : St} {b : Bool}
    (h : askFirst c t pos r st = .ok (st1, b)) (hb : b = true) : ItemAsks c t true r.node.tag := by
  unfold askFirst at h
  split at h
  · exact needFirstNewline_asks h hb
  · cases h; cases hb

theorem askNext_asks {t : Tag} {prev : Node} {r : R} {st st1 : St} {b : Bool}
    (h : askNext c t prev r st = .ok (st1, b)) (hb : b = true) : ItemAsks c t false r.node.tag := by
  unfold askNext at h
  split at h
  · exact needNewline_asks h hb
  · cases h; cases hb

/-! ### Lists -/

/-- The children of a list with their items. -/
inductive KidsQ (Q : Option Nat → Prop) (env : Env) (c : Config) : List R → List (List Item) → Prop
  | nil : KidsQ Q env c [] []
  | cons {r : R} {is : List Item} {rs : List R} {ks : List (List Item)} :
      BSpec Q env c r.w is → KidsQ Q env c rs ks → KidsQ Q env c (r :: rs) (is :: ks)

/-- Where the items of a separated list may begin a line. -/
def SepAsk (Q : Option Nat → Prop) (c : Config) (t : Tag) : Bool → List Loc → List R → Prop
  | first, pre :: _ :: ls, r :: rs => (ItemAsks c t first r.node.tag → Q (some pre.r)) ∧ SepAsk Q c t false ls rs
  | _, _, _ => True

/-- Where the items of a plain list may begin a line. -/
def PlainAsk (Q : Option Nat → Prop) (c : Config) (t : Tag) : Bool → List Loc → List R → Prop
  | first, l :: ls, r :: rs => (ItemAsks c t first r.node.tag → Q (some l.r)) ∧ PlainAsk Q c t false ls rs
  | _, _, _ => True

theorem itemGap_asks (hr : env.posRange = none) (hv : Variant2 c c') {t : Tag} {prev : Node} {r : R} {gap : Loc}
    {x : Str} {st st' : St} {b : Bool} (ha : ItemAsks c t false r.node.tag → Q (some gap.r))
    (h : itemGap env c' t prev r gap x st = .ok (st', b)) : BEmits Q env c [.gap gap x] st.f st'.f := by
  unfold itemGap at h
  split at h
  · next ho => exact absurd hr (outOfRange_ne ho)
  · simp only [Res.bind_eq_ok, Res.pure_eq] at h
    obtain ⟨⟨st1, nl⟩, h1, st2, h2, h3⟩ := h
    cases h3
    have g := nlW_step (A := fun _ => Q (some gap.r)) hv h2 (fun hb => ha (hv.itemAsks (askNext_asks h1 hb)))
    rw [(askNext_ok h1).1.1] at g
    exact .gap1 g

theorem sepRest_asks (hr : env.posRange = none) (hv : Variant2 c c') {t : Tag} {ss : List Str} (ht : t.seps = some ss) (pos : Nat) :
    ∀ (seps : List Str) (locs : List Loc) (rs : List R) (ks : List (List Item)) (last : SepItem) (ind : Bool)
      (loc : Loc) (f0 : Str) (st st' : St) (b : Bool), KidsQ Q env c rs ks → SepAsk Q c t false locs rs →
    AskStep (fun _ => False) env c loc [] f0 st.f →
    sepRest env c' t pos last (sepItems locs rs seps) ind st = .ok (st', b) →
    BEmits Q env c
      (.gap loc [] :: (if (sepIs c t (elementHint t) locs ks seps).isEmpty
        then [.trail t.isFields last.sep ((separator c t).getD last.sep)]
        else .lit last.sep ((separator c t).getD last.sep) :: sepIs c t (elementHint t) locs ks seps))
      f0 st'.f := by
  have base : ∀ (last : SepItem) (ind : Bool) (loc : Loc) (f0 : Str) (st st' : St) (b : Bool),
      AskStep (fun _ => False) env c loc [] f0 st.f →
      sepRest env c' t pos last [] ind st = .ok (st', b) →
      BEmits Q env c [.gap loc [], .trail t.isFields last.sep ((separator c t).getD last.sep)] f0 st'.f := by
    intro last ind loc f0 st st' b hg h
    simp only [sepRest] at h
    have hok := trailingSeparator_ok hv.toVariant ht pos st last.sep
    split at h
    · next hc =>
      cases h
      refine .post _ hg hok ?_
      rw [decide_eq_true hc]
      simp only [if_true, St.put, getSep, separator_variant hv.toVariant]
      exact .nil
    · next hc =>
      cases h
      refine .post _ hg hok ?_
      rw [decide_eq_false hc]
      exact .nil
  intro seps
  induction seps with
  | nil =>
    intro locs rs ks last ind loc f0 st st' b hk _ hg h
    have e1 : sepItems locs rs [] = [] := by
      cases locs with
      | nil => rfl
      | cons a l => cases l <;> cases rs <;> rfl
    have e2 : sepIs c t (elementHint t) locs ks [] = [] := by
      cases locs with
      | nil => rfl
      | cons a l => cases l <;> cases ks <;> rfl
    rw [e1] at h
    rw [e2]
    exact base _ _ _ _ _ _ _ hg h
  | cons s seps ih =>
    intro locs rs ks last ind loc f0 st st' b hk ha hg h
    match locs, hk with
    | [], _ => exact base _ _ _ _ _ _ _ hg h
    | [_], _ => exact base _ _ _ _ _ _ _ hg h
    | _ :: _ :: _, .nil => exact base _ _ _ _ _ _ _ hg h
    | pre :: post :: ls, .cons (r := r) (is := k) (rs := rs) (ks := ks) hr' hk =>
      simp only [sepItems, sepRest, Res.bind_eq_ok] at h
      obtain ⟨⟨st1, nl⟩, h1, st2, h2, st3, h3, h4⟩ := h
      have g1 := itemGap_asks hr hv ha.1 h1
      have g2 := hr' _ _ _ hv h2
      have g3 := hintW_step (A := fun _ => False) hv h3
      have g4 := ih ls rs ks _ _ post st2.f _ _ _ hk ha.2 g3 h4
      have hne : (sepIs c t (elementHint t) (pre :: post :: ls) (k :: ks) (s :: seps)).isEmpty = false := rfl
      simp only [hne]
      obtain ⟨p0, f1, g, lvl, b', e1, e2, e3, e4, e5⟩ := hg
      refine .gap ⟨p0, f1, g, lvl, b', e1, e2, e3, fun h => (e4 h).elim, e5⟩ (.lit ?_)
      simp only [sepIs]
      have g1' : BEmits Q env c [.gap pre (elementHint t)] (st.f ++ (separator c t).getD last.sep) st1.f := by
        simpa only [St.put, getSep, separator_variant hv.toVariant] using g1
      exact (g1'.append (g2.append g4) :)

theorem sepList_asks (hr : env.posRange = none) (hv : Variant2 c c') {t : Tag} {ss : List Str}
    (ht : t.seps = some ss) (pos : Nat) (seps : List Str) (locs : List Loc) (rs : List R) (ks : List (List Item))
    (st st' : St) (b : Bool) (hk : KidsQ Q env c rs ks) (ha : SepAsk Q c t true locs rs)
    (h : sepList env c' t pos (sepItems locs rs seps) st = .ok (st', b)) :
    BEmits Q env c (sepIs c t [] locs ks seps) st.f st'.f := by
  match seps, locs, hk with
  | [], [], _ => cases h; exact .nil
  | [], [_], _ => cases h; exact .nil
  | [], _ :: _ :: _, .nil => cases h; exact .nil
  | [], _ :: _ :: _, .cons _ _ => cases h; exact .nil
  | _ :: _, [], _ => cases h; exact .nil
  | _ :: _, [_], _ => cases h; exact .nil
  | _ :: _, _ :: _ :: _, .nil => cases h; exact .nil
  | s :: seps, pre :: post :: ls, .cons (r := r) (is := k) (rs := rs) (ks := ks) hr' hk =>
    simp only [sepItems, sepList, Res.bind_eq_ok] at h
    obtain ⟨⟨st1, nl⟩, h1, st2, h2, st3, h3, st4, h4, h5⟩ := h
    have g2 := nlW_step (A := fun _ => Q (some pre.r)) hv h2 (fun hb => ha.1 (hv.itemAsks (askFirst_asks h1 hb)))
    have g3 := hr' _ _ _ hv h3
    have g4 := hintW_step (A := fun _ => False) hv h4
    have g5 := sepRest_asks hr hv ht pos seps ls rs ks _ _ post st3.f _ _ _ hk ha.2 g4 h5
    rw [(askFirst_ok h1).1.1] at g2
    simp only [sepIs]
    exact ((BEmits.gap1 g2).append (g3.append g5) :)

theorem listRest_asks (hr : env.posRange = none) (hv : Variant2 c c') (t : Tag) :
    ∀ (locs : List Loc) (rs : List R) (ks : List (List Item)) (prev : Node) (ind : Bool) (st st' : St) (b : Bool),
    KidsQ Q env c rs ks → PlainAsk Q c t false locs rs → listRest env c' t prev (locs.zip rs) ind st = .ok (st', b) →
    BEmits Q env c (plainIs locs ((rs.map (·.node.tag)).zip ks)) st.f st'.f := by
  intro locs
  induction locs with
  | nil =>
    intro rs ks prev ind st st' b hk _ h
    cases h
    exact .nil
  | cons l ls ih =>
    intro rs ks prev ind st st' b hk ha h
    cases hk with
    | nil => cases h; exact .nil
    | cons hr' hk =>
      simp only [List.zip_cons_cons, listRest, Res.bind_eq_ok] at h
      obtain ⟨⟨st1, nl⟩, h1, st2, h2, h3⟩ := h
      have g1 := itemGap_asks hr hv ha.1 h1
      have g2 := hr' _ _ _ hv h2
      have g3 := ih _ _ _ _ _ _ _ hk ha.2 h3
      exact (g1.append (g2.append g3) :)

theorem plainList_asks (hr : env.posRange = none) (hv : Variant2 c c') (t : Tag) (pos : Nat)
    (locs : List Loc) (rs : List R) (ks : List (List Item)) (st st' : St) (b : Bool) (hk : KidsQ Q env c rs ks)
    (ha : PlainAsk Q c t true locs rs)
    (h : plainList env c' t pos (locs.zip rs) st = .ok (st', b)) :
    BEmits Q env c (plainIs0 locs ((rs.map (·.node.tag)).zip ks)) st.f st'.f := by
  match locs, hk with
  | [], _ => cases h; exact .nil
  | _ :: _, .nil => cases h; exact .nil
  | l :: ls, .cons hr' hk =>
    simp only [List.zip_cons_cons, plainList, Res.bind_eq_ok] at h
    obtain ⟨⟨st1, nl⟩, h1, st2, h2, st3, h3, h4⟩ := h
    have g2 := nlW_step (A := fun _ => Q (some l.r)) hv h2 (fun hb => ha.1 (hv.itemAsks (askFirst_asks h1 hb)))
    have g3 := hr' _ _ _ hv h3
    have g4 := listRest_asks hr hv t _ _ _ _ _ _ _ _ hk ha.2 h4
    rw [(askFirst_ok h1).1.1] at g2
    exact ((BEmits.gap1 g2).append (g3.append g4) :)

/-! ### Templates -/

/-- Newlines only at the places `A`. -/
def El.at (A : Nat → Prop) : El → Prop
  | .nl b i _ => b = true → A i
  | _ => True

def Fm.at (A : Nat → Prop) : Fm → Prop
  | .el e => e.at A
  | .ind _ _ _ body => ∀ e ∈ body, e.at A

theorem kid_asks (hv : Variant2 c c') {rs : List R} {ks : List (List Item)} (hk : KidsQ Q env c rs ks) {i : Nat} {st st' : St}
    (h : kidW rs i c' st = .ok st') : BEmits Q env c (ks[i]?.getD []) st.f st'.f := by
  induction hk generalizing i with
  | nil => simp [kidW] at h
  | cons hr _ ih =>
    cases i with
    | zero =>
      simp only [kidW, List.getElem?_cons_zero] at h
      simpa using hr _ _ _ hv h
    | succ i =>
      have := ih (i := i) (by simpa only [kidW, List.getElem?_cons_succ] using h)
      simpa using this

theorem runEl_asks (hv : Variant2 c c') {locs : List Loc} {rs : List R} {ks : List (List Item)} (hk : KidsQ Q env c rs ks)
    {e : El} (he : e.at fun g => Q (some (locAt locs g).r)) {st st' : St} (h : runEl env locs rs c' e st = .ok st') :
    BEmits Q env c (e.slots.flatMap (slotItems locs ks)) st.f st'.f := by
  cases e with
  | lit s => cases h; exact .lit .nil
  | hint i x => exact .gap1 (hintW_step hv h)
  | nl b i x => exact .gap1 (nlW_step hv h he)
  | kid i => simpa [El.slots, slotItems] using kid_asks hv hk h
  | inc => cases h; exact .nil
  | dec => cases h; exact .nil
  | incF => cases h; exact .nil
  | decF => cases h; exact .nil

theorem runEls_asks (hv : Variant2 c c') {locs : List Loc} {rs : List R} {ks : List (List Item)} (hk : KidsQ Q env c rs ks) :
    ∀ {es : List El}, (∀ e ∈ es, e.at fun g => Q (some (locAt locs g).r)) → ∀ {st st' : St},
    runAll (runEl env locs rs c') es st = .ok st' →
      BEmits Q env c ((es.flatMap El.slots).flatMap (slotItems locs ks)) st.f st'.f := by
  intro es
  induction es with
  | nil => intro _ st st' h; cases h; exact .nil
  | cons e es ih =>
    intro he st st' h
    simp only [runAll, Res.bind_eq_ok] at h
    obtain ⟨st1, h1, h2⟩ := h
    have b1 := runEl_asks hv hk (he e (by simp)) h1
    have b2 := ih (fun e h => he e (by simp [h])) h2
    simpa [List.flatMap_append] using b1.append b2

theorem runFm_asks (hv : Variant2 c c') {locs : List Loc} {rs : List R} {ks : List (List Item)} (hk : KidsQ Q env c rs ks)
    {m : Fm} (hm : m.at fun g => Q (some (locAt locs g).r)) {st st' : St} (h : runFm env locs rs c' m st = .ok st') :
    BEmits Q env c (m.slots.flatMap (slotItems locs ks)) st.f st'.f := by
  cases m with
  | el e => exact runEl_asks hv hk hm h
  | ind k i x body =>
    simp only [runFm] at h
    split at h
    · cases h
    · next r hr =>
      simp only [Res.bind_eq_ok, Res.pure_eq] at h
      obtain ⟨⟨st1, ind⟩, h1, st2, h2, h3⟩ := h
      have hs := testIndent_same h1
      have b := runEls_asks hv hk hm h2
      cases h3
      cases ind with
      | false =>
        simp only [Bool.false_eq_true, if_false] at b ⊢
        rw [hs.1] at b
        exact b
      | true =>
        simp only [if_true] at b ⊢
        have hf : (incIndent none st1).f = st.f := hs.1
        rw [hf] at b
        exact b

theorem runFms_asks (hv : Variant2 c c') {locs : List Loc} {rs : List R} {ks : List (List Item)} (hk : KidsQ Q env c rs ks) :
    ∀ {ms : List Fm}, (∀ m ∈ ms, m.at fun g => Q (some (locAt locs g).r)) → ∀ {st st' : St},
    runAll (runFm env locs rs c') ms st = .ok st' →
      BEmits Q env c ((ms.flatMap Fm.slots).flatMap (slotItems locs ks)) st.f st'.f := by
  intro ms
  induction ms with
  | nil => intro _ st st' h; cases h; exact .nil
  | cons m ms ih =>
    intro he st st' h
    simp only [runAll, Res.bind_eq_ok] at h
    obtain ⟨st1, h1, h2⟩ := h
    have b1 := runFm_asks hv hk (he m (by simp)) h1
    have b2 := ih (fun e h => he e (by simp [h])) h2
    simpa [List.flatMap_append] using b1.append b2

theorem place_of {t : Tag} {o : NOpt} {ps : List (Nat × Nat)} {g : Nat} (h : lineBreaks t = some (o, ps)) (hc : c.num o = some 1)
    (d : Nat) (hm : (g, d) ∈ ps) : Place c t g := .inl (.inl ⟨o, ps, d, h, hc, hm⟩)

/-- Each template has newlines only at the places of the specification. -/
theorem template_places {t : Tag} {ms : List Fm} (h : t.template c = some ms) : ∀ m ∈ ms, m.at (Place c t) := by
  cases t <;> simp only [Tag.template, reduceCtorEq, Option.some.injEq] at h
  all_goals subst h
  all_goals first
    | (simp [Fm.at, El.at]; done)
    | (simp only [List.forall_mem_cons, Fm.at, El.at, true_and, and_true, List.not_mem_nil,
        false_implies, implies_true, decide_eq_true_eq]
       first
        | (exact fun h => place_of rfl h 0 (by decide))
        | (exact fun h => place_of rfl h 1 (by decide))
        | (exact fun h => .inl (.inr (.inl ⟨rfl, rfl, fun e => by rw [e] at h; cases h⟩)))
        | (exact fun h => .inr ⟨.inl ⟨rfl, rfl⟩, h⟩)
        | (exact fun h => .inr ⟨.inr ⟨rfl, rfl⟩, h⟩)
        | (refine ⟨?_, ?_⟩ <;> first | exact fun h => place_of rfl h 0 (by decide) | exact fun h => place_of rfl h 1 (by decide))
        | (refine ⟨?_, ?_, ?_⟩ <;> first | exact fun h => place_of rfl h 0 (by decide) | exact fun h => place_of rfl h 1 (by decide))
        | (refine ⟨?_, ?_, ?_, ?_⟩ <;> first | exact fun h => place_of rfl h 0 (by decide) | exact fun h => place_of rfl h 1 (by decide))
        | (refine ⟨?_, ?_, ?_, ?_, ?_⟩ <;> first | exact fun h => place_of rfl h 0 (by decide) | exact fun h => place_of rfl h 1 (by decide)))

/-! ### Operators and tables -/

theorem binaryW_asks (hv : Variant2 c c') {locs : List Loc} {rs : List R} {ks : List (List Item)} (hk : KidsQ Q env c rs ks)
    {op : Str} (hq : ∀ g, Place c (.binaryOp op) g → Q (some (locAt locs g).r)) {st st' : St}
    (h : binaryW env op locs rs c' st = .ok st') :
    BEmits Q env c
      (([.kid 0, .gap 0 [' '], .lit op, .gap 1 [' '], .kid 1] : List Slot).flatMap (slotItems locs ks)) st.f st'.f := by
  simp only [binaryW, Res.bind_eq_ok] at h
  obtain ⟨st1, h1, h⟩ := h
  have g1 := kid_asks hv hk h1
  have hex : ∃ st2 one, Same st1 st2 ∧ runAll (runEl env locs rs c')
      [.nl (decide (c'.num .newlineFormatBinaryOp = some 1) && !one) 0 [' '], .lit op,
       .nl (decide (c'.num .newlineFormatBinaryOp = some 2) && !one) 1 [' '], .kid 1, .dec] st2 = .ok st' := by
    split at h
    · simp only [Res.bind_eq_ok, Res.pure_eq] at h
      obtain ⟨⟨a, b⟩, ha, x, hx, hb⟩ := h
      cases hx
      exact ⟨_, _, (testOneline_ok ha).1, hb⟩
    · exact ⟨st1, false, .refl _, h⟩
  obtain ⟨st2, one, hs, h3⟩ := hex
  have g3 := runEls_asks hv hk (by
    simp only [List.forall_mem_cons, El.at, true_and, List.not_mem_nil, false_implies, implies_true, and_true,
      Bool.and_eq_true, decide_eq_true_eq]
    exact ⟨fun h => hq _ (.inl (.inr (.inr (.inr ⟨⟨_, rfl⟩, .inl ⟨rfl, hv.numSome h.1⟩⟩)))),
      fun h => hq _ (.inl (.inr (.inr (.inr ⟨⟨_, rfl⟩, .inr ⟨rfl, hv.numSome h.1⟩⟩))))⟩) h3
  rw [hs.1] at g3
  exact (g1.append g3 :)

theorem tableW_asks (hv : Variant2 c c') {locs : List Loc} {rs : List R}
    {ks : List (List Item)} (hk : KidsQ Q env c rs ks) {iv single : Option Bool} {span : Loc}
    (hq : ∀ g, Place c (.tableConstructor iv single) g → Q (some (locAt locs g).r))
    (hn : c.bool .writeNewlineAtMultilineTable = some true → Q none) {st st' : St}
    (h : tableW env iv single span locs rs c' st = .ok st') :
    BEmits Q env c
      (([.extra (tableHint c), .lit ['{'], .gap 0 (tableHint c), .kid 0, .gap 1 (tableHint c), .lit ['}']] :
        List Slot).flatMap (slotItems locs ks)) st.f st'.f := by
  have hh : (c'.str .hintTableConstructor).getD [] = tableHint c := by rw [← hv.toVariant.tableHint]; rfl
  simp only [tableW, Res.bind_eq_ok, hh] at h
  obtain ⟨st1, h1, h⟩ := h
  have g1 := nlW_step (A := fun _ => Q none) hv h1 (fun hb => hn (hv.multiline (by
    simp only [Bool.and_eq_true, decide_eq_true_eq] at hb; exact hb.1)))
  cases hk with
  | nil => simp at h
  | @cons r is rs ks hr hk =>
    simp only [List.getElem?_cons_zero] at h
    have hex : ∃ st2 ind, Same { st1.put ['{'] with fn := st1.fn + 1 } st2 ∧ ∃ st3,
        hintW env c' (locAt locs 0) (tableHint c)
          (if ind = true then
            incIndent none
              (match r.node.tag with
              | Tag.fields _ _ _ =>
                { st2 with cells := { st2.cells with indent := upd st2.cells.indent r.node.span.l ind } }
              | _ => st2)
          else
            match r.node.tag with
            | Tag.fields _ _ _ =>
              { st2 with cells := { st2.cells with indent := upd st2.cells.indent r.node.span.l ind } }
            | _ => st2) = .ok st3 ∧ ∃ st4, r.w c' st3 = .ok st4 ∧ ∃ st5,
        nlW env c'
          ((decide (c'.num NOpt.newlineFormatTableConstructor = some 1) ||
              match c'.num NOpt.maxWidth with
              | some m => decide (m ≤ lenAfterNewline st4.f)
              | none => false) && ind)
          (locAt locs 1) (tableHint c)
          { (if ind = true then decIndent st4 else st4) with
            fn := (if ind = true then decIndent st4 else st4).fn - 1 } = .ok st5 ∧
        .ok (st5.put ['}']) = Res.ok st' := by
      split at h
      · simp only [Res.bind_eq_ok, Res.pure_eq] at h
        obtain ⟨⟨a, b⟩, ha, st3, h3, st4, h4, st5, h5, h6⟩ := h
        exact ⟨a, b, testIndent_same ha, st3, h3, st4, h4, st5, h5, h6⟩
      · simp only [Res.bind_eq_ok, Res.pure_eq] at h
        obtain ⟨⟨a, b⟩, ha, st3, h3, st4, h4, st5, h5, h6⟩ := h
        cases ha
        exact ⟨_, _, .refl _, st3, h3, st4, h4, st5, h5, h6⟩
    obtain ⟨st2, ind, hs2, st3, h3, st4, h4, st5, h5, h6⟩ := hex
    generalize hst : (match r.node.tag with
      | .fields _ _ _ => { st2 with cells := { st2.cells with indent := upd st2.cells.indent r.node.span.l ind } }
      | _ => st2) = st2' at h3
    have hs2' : Same st2 st2' := by
      rw [← hst]; split <;> exact ⟨rfl, rfl⟩
    have g3 := hintW_step (A := fun _ => Q (some (locAt locs 0).r)) hv h3
    have g4 := hr _ _ _ hv h4
    have g5 := nlW_step (A := fun _ => Q (some (locAt locs 1).r)) hv h5 (fun hb => hq 1 (by
      simp only [Bool.and_eq_true, Bool.or_eq_true, decide_eq_true_eq] at hb
      rcases hb.1 with hb | hb
      · exact place_of rfl (hv.numSome hb) 0 (by decide)
      · refine .inl (.inr (.inr (.inl ⟨⟨_, _, rfl⟩, rfl, hv.numNe fun e => ?_⟩)))
        rw [e] at hb
        cases hb))
    cases h6
    have hs := hs2.trans hs2'
    have hf : st2'.f = st1.f ++ ['{'] := hs.1
    have hf4 : (if ind = true then decIndent st4 else st4).f = st4.f := by cases ind <;> rfl
    have hf3 : (if ind = true then incIndent none st2' else st2').f = st1.f ++ ['{'] := by cases ind <;> exact hf
    simp only [List.flatMap_cons, slotItems, List.flatMap_nil, List.append_nil, List.cons_append, List.nil_append,
      List.getElem?_cons_zero, Option.getD_some]
    refine .brace g1 ?_
    rw [hf3] at g3
    refine .gap g3 (g4.append ?_)
    have g5' : AskStep (fun _ => Q (some (locAt locs 1).r)) env c (locAt locs 1) (tableHint c) st4.f st5.f := by
      have : ({ (if ind = true then decIndent st4 else st4) with
          fn := (if ind = true then decIndent st4 else st4).fn - 1 } : St).f = st4.f := hf4
      rw [← this]; exact g5
    exact .gap g5' (.lit .nil)

theorem tableEmptyW_asks (hv : Variant2 c c') {locs : List Loc} {st st' : St}
    {ks : List (List Item)} (h : tableEmptyW env locs c' st = .ok st') :
    BEmits Q env c (([.lit ['{'], .gap 0 (tableHint c), .lit ['}']] : List Slot).flatMap (slotItems locs ks)) st.f st'.f := by
  have hh : (c'.str .hintTableConstructor).getD [] = tableHint c := by rw [← hv.toVariant.tableHint]; rfl
  simp only [tableEmptyW, Res.bind_eq_ok, hh] at h
  obtain ⟨t, ht, st1, h1, h2⟩ := h
  rw [hv.toVariant.commentHint] at ht
  have g1 := nlW_step (A := InTable env c (locAt locs 0) (tableHint c)) hv h1 (fun hb => ⟨t, ht, hb⟩)
  cases h2
  exact .emptyTable g1 .nil

/-! ### Arms -/

/-- Where a node may begin a line. -/
structure AllowsAt (Q : Option Nat → Prop) (c : Config) (t : Tag) (locs : List Loc) (rs : List R) : Prop where
  place : ∀ g, Place c t g → Q (some (locAt locs g).r)
  sep : t.seps.isSome = true → SepAsk Q c t true locs rs
  plain : t.isPlainList = true → PlainAsk Q c t true locs rs
  brace : c.bool .writeNewlineAtMultilineTable = some true → Q none

theorem plainW_asks (hr : env.posRange = none) {t : Tag} {span : Loc} {locs : List Loc} {rs : List R}
    {ks : List (List Item)} (hl : t.leafText = none) (hk : KidsQ Q env c rs ks) (ha : AllowsAt Q c t locs rs) :
    BSpec Q env c (plainW env t span locs rs) (itemsOf c t locs (rs.map (·.node.tag)) ks) := by
  intro c' st st' hv h
  unfold itemsOf
  simp only [hl]
  unfold plainW at h
  split at h
  · exact binaryW_asks hv hk ha.place h
  · exact tableW_asks hv hk ha.place ha.brace h
  · exact tableEmptyW_asks hv h
  · next h1 h2 h3 =>
    have hfr : frame c t = (t.template c).map (·.flatMap Fm.slots) := by
      unfold frame; split
      · exact absurd rfl (h1 _)
      · exact absurd rfl (h2 _ _)
      · exact absurd rfl h3
      · rfl
    rw [hfr, ← variant_template hv.toVariant]
    cases ht : t.template c' with
    | some ms =>
      rw [ht] at h
      refine runFms_asks hv hk (fun m hm => ?_) h
      have := template_places ht m hm
      cases m with
      | el e => 
        cases e with
        | nl b i x => exact fun hb => ha.place _ (hv.place (this hb))
        | _ => trivial
      | ind k i x body =>
        intro e he
        have := this e he
        cases e with
        | nl b i x => exact fun hb => ha.place _ (hv.place (this hb))
        | _ => trivial
    | none =>
      rw [ht] at h
      simp only [Res.bind_eq_ok, Res.pure_eq, Option.map_none] at h ⊢
      obtain ⟨⟨st1, b⟩, h4, h5⟩ := h
      cases h5
      unfold listW at h4
      cases hs : t.seps with
      | some ss =>
        rw [hs] at h4
        exact sepList_asks hr hv hs _ _ _ _ _ _ _ _ hk (ha.sep (by rw [hs]; rfl)) h4
      | none =>
        rw [hs] at h4
        simp only at h4 ⊢
        split at h4
        · next hp =>
          rw [if_pos hp]
          exact plainList_asks hr hv _ _ _ _ _ _ _ _ hk (ha.plain hp) h4
        · next hp =>
          rw [if_neg hp]
          cases h4
          exact .nil

theorem onelineCfg_variant2 (hv : Variant2 c c') {tc : Config} {t : Tag} {span : Loc} {st : St}
    (h : onelineCfg c' t span st = some tc) : Variant2 c tc := by
  refine ⟨onelineCfg_variant hv.toVariant h, ?_⟩
  unfold onelineCfg at h
  split at h
  · split at h
    · cases h
      intro h
      simp [Config.bool, Config.setBool, Config.setNum, upd] at h
    · cases h
  · split at h
    · split at h
      · cases h; exact hv.tables
      · cases h
    · split at h
      · split at h
        · cases h; exact hv.tables
        · cases h
      · cases h

theorem armW_asks {t : Tag} {span : Loc} {locs : List Loc} {rs : List R}
    {is : List Item} (hp : BSpec Q env c (plainW env t span locs rs) is) :
    BSpec Q env c (armW env t span locs rs) is := by
  intro c' st st' hv h
  unfold armW at h
  split at h
  · exact hp _ _ _ hv h
  · next tc htc =>
    have hv' := onelineCfg_variant2 hv htc
    simp only [Res.bind_eq_ok] at h
    obtain ⟨⟨st1, x⟩, h1, h2⟩ := h
    obtain ⟨hs, hx⟩ := testOnelineNoNl_ok h1
    cases x with
    | none =>
      have b := hp _ _ _ hv h2
      rw [hs.1] at b
      exact b
    | some line =>
      obtain ⟨hnn, st2, h3, rfl⟩ := hx line rfl
      have b := hp _ _ _ hv' h3
      have b' := b.lift st.f (by simpa [hasNewlines] using hnn)
      simp only [List.append_nil] at b'
      simp only [Res.pure_eq] at h2
      cases h2
      rw [← hs.1] at b' ⊢
      cases t <;> exact b'

theorem writeW_asks (hr : env.posRange = none) {t : Tag} {span : Loc} {locs : List Loc} {rs : List R}
    {ks : List (List Item)} {is : List Item} (hl : t.leafText = none) (hk : KidsQ Q env c rs ks)
    (ha : AllowsAt Q c t locs rs) (his : is = itemsOf c t locs (rs.map (·.node.tag)) ks) :
    BSpec Q env c (writeW env t span locs rs) is := by
  subst his
  have harm := armW_asks (plainW_asks (span := span) hr hl hk ha)
  intro c' st st' hv h
  have hw : writeW env t span locs rs c' st =
      (if t.checksRange = true ∧ outOfRange env.posRange span = true then locW env span st
      else
        match t.shape with
        | some sh =>
          if notContained env.posRange span = true then runAll (runSh env locs rs c') sh st
          else armW env t span locs rs c' st
        | none => armW env t span locs rs c' st) := by
    unfold writeW; simp only [hl, Bool.and_eq_true]
    split
    · rfl
    · cases t.shape with
      | none => rfl
      | some sh => simp only; split <;> rfl
  rw [hw] at h
  split at h
  · next ho => exact absurd hr (outOfRange_ne ho.2)
  · split at h
    · split at h
      · next hn => exact absurd hr (notContained_ne hn)
      · exact harm _ _ _ hv h
    · exact harm _ _ _ hv h

/-! ### Trees -/

mutual
/-- A tree may begin lines only where `Q` says so. -/
def Node.Allows (Q : Option Nat → Prop) (c : Config) : Node → Prop
  | .mk tag _ locs kids => (∀ g, Place c tag g → Q (some (locAt locs g).r)) ∧
      (∀ i item loc, kids[i]? = some item → locs[itemPlace tag i]? = some loc → ItemAsks c tag (i == 0) item.tag →
        Q (some loc.r)) ∧ Node.AllowsAll Q c kids
def Node.AllowsAll (Q : Option Nat → Prop) (c : Config) : List Node → Prop
  | [] => True
  | n :: ns => n.Allows Q c ∧ Node.AllowsAll Q c ns
end

theorem annotate_place {over : Option Bool} {t : Tag} {ks : List Node} {g : Nat} (h : Place c (annotateTag c over t ks) g) :
    Place c t g := by
  cases t
  case charStringLiteral s =>
    simp only [annotateTag] at h
    split at h
    · simp [Place, PlaceAsks, lineBreaks] at h
    · exact h
  all_goals first
    | exact h
    | (simp only [annotateTag, Place, PlaceAsks, lineBreaks] at h ⊢; simpa using h)

theorem annotate_item {over over' : Option Bool} {t n : Tag} {ks ks' : List Node} {b : Bool}
    (h : ItemAsks c (annotateTag c over t ks) b (annotateTag c over' n ks')) : ItemAsks c t b n := by
  have h1 : (∃ iv single, annotateTag c over' n ks' = .tableConstructor iv single) → ∃ iv single, n = .tableConstructor iv single := by
    cases n
    case charStringLiteral s => simp only [annotateTag]; split <;> simp
    all_goals simp [annotateTag]
  have h2 : annotateTag c over' n ks' = .tableMember → n = .tableMember := by
    cases n
    case charStringLiteral s => simp only [annotateTag]; split <;> simp
    all_goals simp [annotateTag]
  have h3 : annotateTag c over' n ks' = .fnMethodCall → n = .fnMethodCall := by
    cases n
    case charStringLiteral s => simp only [annotateTag]; split <;> simp
    all_goals simp [annotateTag]
  cases t
  case charStringLiteral s =>
    simp only [annotateTag] at h
    split at h <;> exact h
  case expList s =>
    rcases h with h | ⟨a, h, d⟩
    · exact .inl h
    · exact .inr ⟨a, h1 h, d⟩
  case varSuffixList => exact ⟨h.1, h.2.imp h2 h3⟩
  all_goals exact h

theorem sepAsk_of {t : Tag} : ∀ (locs : List Loc) (rs : List R) (first : Bool),
    (∀ i r loc, rs[i]? = some r → locs[2 * i]? = some loc → ItemAsks c t (first && i == 0) r.node.tag → Q (some loc.r)) →
    SepAsk Q c t first locs rs
  | [], _, _, _ => by cases ‹List R› <;> simp [SepAsk]
  | [_], _, _, _ => by cases ‹List R› <;> simp [SepAsk]
  | pre :: post :: ls, [], _, _ => trivial
  | pre :: post :: ls, r :: rs, first, h => by
    refine ⟨fun ha => h 0 r pre rfl rfl (by simpa using ha), sepAsk_of ls rs false fun i r' loc h1 h2 h3 => ?_⟩
    refine h (i + 1) r' loc (by simpa using h1) ?_ (by simpa using h3)
    rw [show 2 * (i + 1) = 2 * i + 1 + 1 by omega]
    simpa using h2

theorem plainAsk_of {t : Tag} : ∀ (locs : List Loc) (rs : List R) (first : Bool),
    (∀ i r loc, rs[i]? = some r → locs[i]? = some loc → ItemAsks c t (first && i == 0) r.node.tag → Q (some loc.r)) →
    PlainAsk Q c t first locs rs
  | [], _, _, _ => by cases ‹List R› <;> simp [PlainAsk]
  | pre :: ls, [], _, _ => trivial
  | pre :: ls, r :: rs, first, h => by
    refine ⟨fun ha => h 0 r pre rfl rfl (by simpa using ha), plainAsk_of ls rs false fun i r' loc h1 h2 h3 => ?_⟩
    exact h (i + 1) r' loc (by simpa using h1) (by simpa using h2) (by simpa using h3)

theorem mkRs_annotate (env : Env) (over : Option Bool) : ∀ (ns : List Node) (i : Nat) (r : R),
    (mkRs env (annotateAll c over ns))[i]? = some r →
    ∃ n ks, ns[i]? = some n ∧ r.node.tag = annotateTag c over n.tag ks
  | [], i, r, h => by simp [annotateAll, mkRs] at h
  | .mk tag span locs kids :: ns, 0, r, h => by
    simp only [annotateAll, annotate, mkRs, mkR, List.getElem?_cons_zero, Option.some.injEq] at h
    subst h
    exact ⟨_, _, rfl, rfl⟩
  | .mk tag span locs kids :: ns, i + 1, r, h => by
    simp only [annotateAll, mkRs, List.getElem?_cons_succ] at h
    obtain ⟨n, ks, h1, h2⟩ := mkRs_annotate env over ns i r h
    exact ⟨n, ks, by simpa using h1, h2⟩

mutual
/-- Writing a node renders its items, with newlines only where they are asked for. -/
theorem write_asks (env : Env) (hr : env.posRange = none) (c : Config)
    (hn : c.bool .writeNewlineAtMultilineTable = some true → Q none) (over : Option Bool) :
    ∀ n : Node, n.Allows Q c → BSpec Q env c (mkR env (annotate c over n)).w (n.items c)
  | .mk tag span locs kids, hp => by
    have ih := writeAll_asks env hr c hn (childSingle over tag kids.length) kids hp.2.2
    by_cases hl : tag.leafText = none
    · simp only [annotate, mkR]
      refine writeW_asks hr (annotateTag_leaf.1.2 hl) ih ⟨?_, ?_, ?_, hn⟩ ?_
      · exact fun g h => hp.1 g (annotate_place h)
      · intro hs
        refine sepAsk_of _ _ _ fun i r loc h1 h2 h3 => ?_
        obtain ⟨n, ks, h4, h5⟩ := mkRs_annotate env _ kids i r h1
        rw [h5] at h3
        have h3 := annotate_item h3
        refine hp.2.1 i n loc h4 ?_ (by simpa using h3)
        rw [show itemPlace tag i = 2 * i from ?_]
        · exact h2
        · cases tag <;> first | rfl | (simp [annotateTag, Tag.seps] at hs)
      · intro hs
        refine plainAsk_of _ _ _ fun i r loc h1 h2 h3 => ?_
        obtain ⟨n, ks, h4, h5⟩ := mkRs_annotate env _ kids i r h1
        rw [h5] at h3
        have h3 := annotate_item h3
        refine hp.2.1 i n loc h4 ?_ (by simpa using h3)
        rw [show itemPlace tag i = i from ?_]
        · exact h2
        · cases tag <;> first | rfl | (exact (h3 : False).elim) | (simp [annotateTag, Tag.isPlainList] at hs)
      · simp only [Node.items]
        rw [mkRs_tags]
        exact (itemsOf_annotate hl (annotateAll_hints c _ kids)).symm
    · intro c' st st' hv h
      obtain ⟨s, hs⟩ := Option.ne_none_iff_exists'.1 hl
      have e := (annotateTag_leaf (c := c) (over := over) (t := tag)
        (ks := annotateAll c (childSingle over tag kids.length) kids)).2 hl
      have hne : (annotateTag c over tag (annotateAll c (childSingle over tag kids.length) kids)).leafText ≠ none :=
        fun h => hl (annotateTag_leaf.1.1 h)
      obtain ⟨s', hs'⟩ := Option.ne_none_iff_exists'.1 hne
      simp only [annotate, mkR, writeW, hs'] at h
      cases h
      simp only [Node.items, itemsOf, hs]
      rw [← e, hs']
      exact .lit .nil
theorem writeAll_asks (env : Env) (hr : env.posRange = none) (c : Config)
    (hn : c.bool .writeNewlineAtMultilineTable = some true → Q none) (over : Option Bool) :
    ∀ ns : List Node, Node.AllowsAll Q c ns → KidsQ Q env c (mkRs env (annotateAll c over ns)) (Node.itemsAll c ns)
  | [], _ => .nil
  | n :: ns, hp => .cons (write_asks env hr c hn over n hp.1) (writeAll_asks env hr c hn over ns hp.2)
end

end Luafmt
