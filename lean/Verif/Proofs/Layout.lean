import Verif.Model.Write
import Verif.Spec.Layout

/-
Two trees with the same nodes and the same gap texts are written alike: positions matter only for the one-line tests.
-/
namespace Luafmt
open Spec

/-! ### Outcomes -/

/-- Both outcomes are of one kind, and the results are related. -/
def ResSim {α β : Type} (P : α → β → Prop) : Res α → Res β → Prop
  | .ok a, .ok b => P a b
  | .err, .err => True
  | .panic, .panic => True
  | _, _ => False

theorem ResSim.bind {α β γ δ : Type} {P : α → β → Prop} {Q : γ → δ → Prop} {x : Res α} {y : Res β} {k : α → Res γ}
    {k' : β → Res δ} (h : ResSim P x y) (hk : ∀ a b, P a b → ResSim Q (k a) (k' b)) : ResSim Q (x >>= k) (y >>= k') := by
  cases x <;> cases y <;> first | exact h.elim | trivial | exact hk _ _ h

/-! ### States -/

/-- The states agree but for the `has_indent` cells, and no table is marked as written on one line. -/
structure StSim (s s' : St) : Prop where
  f : s'.f = s.f
  lvl : s'.lvl = s.lvl
  stack : s'.stack = s.stack
  fn : s'.fn = s.fn
  one : s.cells.oneline = fun _ => false
  one' : s'.cells.oneline = fun _ => false

/-- The same for a state with a flag. -/
def StSimB {α : Type} (p p' : St × α) : Prop := StSim p.1 p'.1 ∧ p.2 = p'.2

def WSim (w w' : W) : Prop := ∀ s s', StSim s s' → ResSim StSim (w s) (w' s')

def LSim {α : Type} (w w' : St → Res (St × α)) : Prop := ∀ s s', StSim s s' → ResSim StSimB (w s) (w' s')

variable {c : Config} {env env' : Env}

/-- The gaps are written in the same way. -/
def SameGap (c : Config) (env env' : Env) (l l' : Loc) : Prop :=
  ∀ lvl h f, commentHint env' c lvl l' h f = commentHint env c lvl l h f

/-- Pairwise. -/
inductive Pairs {α β : Type} (P : α → β → Prop) : List α → List β → Prop
  | nil : Pairs P [] []
  | cons {a b as bs} : P a b → Pairs P as bs → Pairs P (a :: as) (b :: bs)

/-- What is written behind the last field of a table. -/
def lastText (c : Config) (s : Str) : Str :=
  match c.bool .writeTrailingFieldSeparator with
  | some true => (c.str .fieldSeparator).getD s
  | some false => []
  | none => if s = [] then [] else (c.str .fieldSeparator).getD s

/-- The separators of two field lists are written in the same way. -/
inductive SepsSim (c : Config) : List Str → List Str → Prop
  | nil : SepsSim c [] []
  | last {s s'} : lastText c s = lastText c s' → SepsSim c [s] [s']
  | cons {s s' t t' ss ss'} : (c.str .fieldSeparator).getD s = (c.str .fieldSeparator).getD s' → lastText c s = lastText c s' →
      SepsSim c (t :: ss) (t' :: ss') → SepsSim c (s :: t :: ss) (s' :: t' :: ss')

/-- The tags are equal but for separators of fields that are written in the same way. -/
inductive TagSim (c : Config) : Tag → Tag → Prop
  | refl {t} : TagSim c t t
  | fields {ss ss' i j} : SepsSim c ss ss' → TagSim c (.fields ss i j) (.fields ss' i j)

mutual
/-- Trees with the same nodes, whose gaps are written in the same way. -/
inductive Alike (c : Config) (env env' : Env) : Node → Node → Prop
  | mk {t t' sp sp' ls ls' ks ks'} : TagSim c t t' → Pairs (SameGap c env env') ls ls' → AlikeAll c env env' ks ks' →
      Alike c env env' (.mk t sp ls ks) (.mk t' sp' ls' ks')
inductive AlikeAll (c : Config) (env env' : Env) : List Node → List Node → Prop
  | nil : AlikeAll c env env' [] []
  | cons {n n' ns ns'} : Alike c env env' n n' → AlikeAll c env env' ns ns' → AlikeAll c env env' (n :: ns) (n' :: ns')
end

/-- The writers of two nodes do the same. -/
structure RSim (c : Config) (env env' : Env) (r r' : R) : Prop where
  node : Alike c env env' r.node r'.node
  w : WSim (r.w c) (r'.w c)
  wl : LSim (r.wl c) (r'.wl c)
  meth : WSim (r.meth c) (r'.meth c)

/-! ### Steps -/

theorem StSim.put {s s' : St} (h : StSim s s') (x : Str) : StSim (s.put x) (s'.put x) :=
  ⟨by simp [St.put, h.f], h.lvl, h.stack, h.fn, h.one, h.one'⟩

theorem StSim.inc {s s' : St} (h : StSim s s') (k : Option Str) : StSim (incIndent k s) (incIndent k s') :=
  ⟨h.f, by simp [incIndent, h.lvl, h.stack], by simp [incIndent, h.stack], h.fn, h.one, h.one'⟩

theorem StSim.dec {s s' : St} (h : StSim s s') : StSim (decIndent s) (decIndent s') :=
  ⟨h.f, by simp [decIndent, h.lvl, h.stack], by simp [decIndent, h.stack], h.fn, h.one, h.one'⟩

theorem StSim.fnc {s s' : St} (h : StSim s s') (k : Int) : StSim { s with fn := s.fn + k } { s' with fn := s'.fn + k } :=
  ⟨h.f, h.lvl, h.stack, by simp [h.fn], h.one, h.one'⟩

/-- Only the cells of the first state are kept. -/
theorem StSim.cells {s s' t t' : St} (h : StSim s s') (ht : StSim t t') :
    StSim { s with cells := t.cells } { s' with cells := t'.cells } :=
  ⟨h.f, h.lvl, h.stack, h.fn, ht.one, ht.one'⟩

theorem StSim.withF {s s' : St} (h : StSim s s') (x : Str) : StSim { s with f := x } { s' with f := x } :=
  ⟨rfl, h.lvl, h.stack, h.fn, h.one, h.one'⟩

theorem hintW_sim {l l' : Loc} (hl : SameGap c env env' l l') (h : Str) : WSim (hintW env c l h) (hintW env' c l' h) := by
  intro s s' hs
  unfold hintW
  rw [hs.f, hs.lvl, hl]
  cases commentHint env c s.lvl l h s.f with
  | ok x => exact ⟨rfl, rfl, hs.stack, hs.fn, hs.one, hs.one'⟩
  | err => trivial
  | panic => trivial

theorem nlW_sim {l l' : Loc} (hl : SameGap c env env' l l') (b : Bool) (h : Str) :
    WSim (nlW env c b l h) (nlW env' c b l' h) := by
  intro s s' hs
  unfold nlW
  have : commentHint env' c s.lvl l' = commentHint env c s.lvl l := by
    funext h f; exact hl _ _ _
  rw [hs.f, hs.lvl, this]
  cases ifNewLine c s.lvl b (commentHint env c s.lvl l) h s.f with
  | ok x => exact ⟨rfl, rfl, hs.stack, hs.fn, hs.one, hs.one'⟩
  | err => trivial
  | panic => trivial

theorem testOneline_sim {w w' : Config → W} (hw : WSim (w c) (w' c)) : LSim (testOneline c w) (testOneline c w') := by
  intro s s' hs
  unfold testOneline
  have := hw _ _ (hs.withF [])
  cases h1 : w c { s with f := [] } with
  | panic =>
    cases h2 : w' c { s' with f := [] } <;> rw [h1, h2] at this <;> first | exact this.elim | trivial
  | err =>
    cases h2 : w' c { s' with f := [] } <;> rw [h1, h2] at this <;> first | exact this.elim | exact ⟨hs, rfl⟩
  | ok t =>
    cases h2 : w' c { s' with f := [] } with
    | panic => rw [h1, h2] at this; exact this.elim
    | err => rw [h1, h2] at this; exact this.elim
    | ok t' =>
      rw [h1, h2] at this
      have ht : StSim t t' := this
      simp only []
      cases c.num .maxWidth with
      | none => trivial
      | some m =>
        refine ⟨hs.cells ht, ?_⟩
        simp only [hs.f, ht.f]

theorem testOnelineNoNl_sim {w w' : Config → W} (hw : WSim (w c) (w' c)) :
    LSim (testOnelineNoNl c w) (testOnelineNoNl c w') := by
  intro s s' hs
  unfold testOnelineNoNl
  refine (testOneline_sim hw s s' hs).bind fun p p' hp => ?_
  obtain ⟨a, x⟩ := p
  obtain ⟨b, y⟩ := p'
  obtain ⟨h1, h2⟩ := hp
  cases h2
  exact ⟨h1, rfl⟩

theorem LSim.map {α β : Type} {w w' : St → Res (St × α)} (h : LSim w w') (g : α → β) :
    LSim (fun s => do let (st, x) ← w s; pure (st, g x)) (fun s => do let (st, x) ← w' s; pure (st, g x)) := by
  intro s s' hs
  refine (h s s' hs).bind fun p p' hp => ?_
  obtain ⟨a, x⟩ := p
  obtain ⟨b, y⟩ := p'
  obtain ⟨h1, h2⟩ := hp
  cases h2
  exact ⟨h1, rfl⟩

theorem LSim.pure {α : Type} (x : α) : LSim (fun s => pure (s, x)) (fun s => pure (s, x)) :=
  fun _ _ hs => ⟨hs, rfl⟩

/-! ### Tags -/

theorem Alike.tag {n n' : Node} (h : Alike c env env' n n') : TagSim c n.tag n'.tag := by
  cases h with
  | mk h1 _ _ => exact h1

theorem Alike.kids {n n' : Node} (h : Alike c env env' n n') : AlikeAll c env env' n.kids n'.kids := by
  cases h with
  | mk _ _ h => exact h

theorem AlikeAll.length {ns ns' : List Node} (h : AlikeAll c env env' ns ns') : ns'.length = ns.length := by
  match ns, ns', h with
  | _, _, .nil => rfl
  | _, _, .cons _ h => simp [h.length]

theorem AlikeAll.get {ns ns' : List Node} (h : AlikeAll c env env' ns ns') (i : Nat) :
    (ns[i]? = none ∧ ns'[i]? = none) ∨ ∃ n n', ns[i]? = some n ∧ ns'[i]? = some n' ∧ Alike c env env' n n' := by
  match ns, ns', h, i with
  | _, _, .nil, _ => exact .inl ⟨rfl, rfl⟩
  | _, _, .cons h _, 0 => exact .inr ⟨_, _, rfl, rfl, h⟩
  | _, _, .cons _ h, i + 1 =>
    simp only [List.getElem?_cons_succ]
    exact h.get i

theorem testOnelineField_sim (hn : c.num .maxWidth = none) (r r' : R) :
    LSim (testOnelineField c r) (testOnelineField c r') := by
  intro s s' hs
  unfold testOnelineField
  simp only [hn, Option.isSome_none, Bool.false_and, Bool.false_eq_true, if_false]
  cases r.node.tag <;> cases r'.node.tag <;> exact ⟨hs, rfl⟩

theorem needNewlineField_sim (hc : NoOneLine c) (isIv : Option Bool) (p p' : Node) (r r' : R) :
    LSim (needNewlineField c isIv p r) (needNewlineField c isIv p' r') := by
  intro s s' hs
  unfold needNewlineField
  simp only [hc.table, if_false]
  split
  · split
    · exact ⟨hs, rfl⟩
    · split
      · next h =>
        rcases hc.width with hw | hw
        · exact (testOnelineField_sim hw r r').map _ s s' hs
        · exact absurd h.1 hw.2.2.2.2
      · exact ⟨hs, rfl⟩
  · exact ⟨hs, rfl⟩

theorem needNewlineSuffix_sim {r r' : R} (hr : RSim c env env' r r') :
    LSim (needNewlineSuffix c r) (needNewlineSuffix c r') := by
  intro s s' hs
  have hw := (testOneline_sim (w := r.w) (w' := r'.w) hr.w).map Option.isNone s s' hs
  have hm := (testOneline_sim (w := r.meth) (w' := r'.meth) hr.meth).map Option.isNone s s' hs
  have hk := hr.node.kids.get 1
  have ht := hr.node.tag
  unfold needNewlineSuffix
  dsimp only
  generalize r.node.tag = t at ht
  generalize r'.node.tag = t' at ht
  cases ht with
  | fields _ => exact ⟨hs, rfl⟩
  | refl =>
    have hg : ∀ {k k' : Res (St × Bool)}, ResSim StSimB k k' →
        ResSim StSimB (if (c.num .newlineFormatVarSuffix).isSome = true then
          if c.bool .forceSingleLineVarSuffix = some true then k else pure (s, true) else pure (s, false))
        (if (c.num .newlineFormatVarSuffix).isSome = true then
          if c.bool .forceSingleLineVarSuffix = some true then k' else pure (s', true) else pure (s', false)) := by
      intro k k' hk
      split
      · split
        · exact hk
        · exact ⟨hs, rfl⟩
      · exact ⟨hs, rfl⟩
    cases t <;> first | exact ⟨hs, rfl⟩ | skip
    · exact hg hw
    · refine hg ?_
      rcases hk with ⟨h1, h2⟩ | ⟨n, n', h1, h2, h3⟩
      · rw [h1, h2]; exact hw
      · rw [h1, h2]
        simp only [Option.map_some]
        have h4 := h3.tag
        generalize n.tag = t at h4
        generalize n'.tag = t' at h4
        cases h4 with
        | fields _ => exact hw
        | refl =>
          cases t <;> first | exact hw | exact hm | skip
          by_cases hn : (c.num .newlineFormatExpListFirst).isSome = true
          · simp only [hn, if_true]; exact hm
          · simp only [hn]; exact hw

theorem needNewline_sim (hc : NoOneLine c) {t t' : Tag} (ht : TagSim c t t') {p p' : Node} {r r' : R}
    (hr : RSim c env env' r r') : LSim (needNewline c t p r) (needNewline c t' p' r') := by
  intro s s' hs
  have hf : ∀ isIv, ResSim StSimB (needNewlineField c isIv p r s) (needNewlineField c isIv p' r' s') := fun i =>
    needNewlineField_sim hc i p p' r r' s s' hs
  unfold needNewline
  cases ht with
  | fields _ => exact hf _
  | refl =>
    cases t <;> first | exact ⟨hs, rfl⟩ | exact hf _ | exact needNewlineSuffix_sim hr s s' hs | skip
    have ht := hr.node.tag
    have main : ∀ b : Bool, ResSim StSimB
        (if b = true ∧ c.bool .writeNewlineAtExplistMultilineTable = some true ∧ c.bool .writeNewlineAtMultilineTable = some false
          then pure (s, true) else if c.num .newlineFormatExpList = some 1 then
            if c.bool .forceSingleLineExpList = some true then do
              let (st, x) ← testOneline c r.w s
              pure (st, x.isNone)
            else pure (s, true)
          else pure (s, false))
        (if b = true ∧ c.bool .writeNewlineAtExplistMultilineTable = some true ∧ c.bool .writeNewlineAtMultilineTable = some false
          then pure (s', true) else if c.num .newlineFormatExpList = some 1 then
            if c.bool .forceSingleLineExpList = some true then do
              let (st, x) ← testOneline c r'.w s'
              pure (st, x.isNone)
            else pure (s', true)
          else pure (s', false)) := by
      intro b
      split
      · exact ⟨hs, rfl⟩
      · split
        · split
          · exact (testOneline_sim (w := r.w) (w' := r'.w) hr.w).map Option.isNone s s' hs
          · exact ⟨hs, rfl⟩
        · exact ⟨hs, rfl⟩
    dsimp only
    generalize r.node.tag = t at ht
    generalize r'.node.tag = t' at ht
    cases ht with
    | fields _ => exact main false
    | refl => cases t <;> first | exact main false | exact main true

theorem needFirstNewline_sim (hc : NoOneLine c) {t t' : Tag} (ht : TagSim c t t') (p p' : Nat) {r r' : R}
    (hr : RSim c env env' r r') : LSim (needFirstNewline c t p r) (needFirstNewline c t' p' r') := by
  intro s s' hs
  have hf : ∀ ss ss' i j, ResSim StSimB (needFirstNewline c (.fields ss i j) p r s) (needFirstNewline c (.fields ss' i j) p' r' s') := by
    intro ss ss' i j
    unfold needFirstNewline
    simp only [hc.table, false_and, if_false]
    split
    · split
      · next h =>
        rcases hc.width with hw | hw
        · exact (testOnelineField_sim hw r r').map Option.isNone s s' hs
        · rcases h with h | h
          · exact absurd h.1 hw.2.2.2.1
          · exact absurd h.1 hw.2.2.2.2
      · exact ⟨hs, rfl⟩
    · exact ⟨hs, rfl⟩
  cases ht with
  | fields _ => exact hf _ _ _ _
  | refl =>
    cases t <;> first | exact ⟨hs, rfl⟩ | exact hf _ _ _ _ | exact needNewlineSuffix_sim hr s s' hs | skip
    unfold needFirstNewline
    dsimp only
    split
    · split
      · exact (testOneline_sim (w := r.w) (w' := r'.w) hr.w).map Option.isNone s s' hs
      · exact ⟨hs, rfl⟩
    · exact ⟨hs, rfl⟩

theorem TagSim.needNewlines {t t' : Tag} (h : TagSim c t t') : needNewlines c t' = needNewlines c t := by
  cases h <;> rfl

theorem TagSim.elementHint {t t' : Tag} (h : TagSim c t t') : elementHint t' = elementHint t := by
  cases h <;> rfl

theorem TagSim.itemHint {t t' : Tag} (h : TagSim c t t') : itemHint t' = itemHint t := by
  cases h <;> rfl

theorem askFirst_sim (hc : NoOneLine c) {t t' : Tag} (ht : TagSim c t t') (p p' : Nat) {r r' : R}
    (hr : RSim c env env' r r') : LSim (askFirst c t p r) (askFirst c t' p' r') := by
  intro s s' hs
  unfold askFirst
  rw [ht.needNewlines]
  split
  · exact needFirstNewline_sim hc ht p p' hr s s' hs
  · exact ⟨hs, rfl⟩

theorem askNext_sim (hc : NoOneLine c) {t t' : Tag} (ht : TagSim c t t') {p p' : Node} {r r' : R}
    (hr : RSim c env env' r r') : LSim (askNext c t p r) (askNext c t' p' r') := by
  intro s s' hs
  unfold askNext
  rw [ht.needNewlines]
  split
  · exact needNewline_sim hc ht hr s s' hs
  · exact ⟨hs, rfl⟩

theorem itemGap_sim (hc : NoOneLine c) (he : env.posRange = none) (he' : env'.posRange = none) {t t' : Tag}
    (ht : TagSim c t t') {p p' : Node} {r r' : R} (hr : RSim c env env' r r') {l l' : Loc} (hl : SameGap c env env' l l')
    (h : Str) : LSim (itemGap env c t p r l h) (itemGap env' c t' p' r' l' h) := by
  intro s s' hs
  unfold itemGap
  rw [he, he']
  simp only [outOfRange, Bool.false_eq_true, if_false]
  refine (askNext_sim hc ht hr s s' hs).bind fun p p' hp => ?_
  obtain ⟨a, x⟩ := p
  obtain ⟨b, y⟩ := p'
  obtain ⟨h1, h2⟩ := hp
  cases h2
  refine (nlW_sim hl x h a b h1).bind fun p p' hp => ?_
  exact ⟨hp, rfl⟩

/-! ### Lists -/

/-- The items of two separated lists; `F` says that the tag is that of fields. -/
inductive ItemsSim (c : Config) (env env' : Env) (t t' : Tag) : List SepItem → List SepItem → Prop
  | nil : ItemsSim c env env' t t' [] []
  | last {x x'} : SameGap c env env' x.pre x'.pre → RSim c env env' x.item x'.item → SameGap c env env' x.post x'.post →
      (∀ p p' s s', (if trailingSeparator c t p s = none ∧ x.sep ≠ [] ∨ trailingSeparator c t p s = some true then getSep c t x else []) =
        (if trailingSeparator c t' p' s' = none ∧ x'.sep ≠ [] ∨ trailingSeparator c t' p' s' = some true then getSep c t' x' else [])) →
      ItemsSim c env env' t t' [x] [x']
  | cons {x x' y y' xs xs'} : SameGap c env env' x.pre x'.pre → RSim c env env' x.item x'.item →
      SameGap c env env' x.post x'.post → getSep c t x = getSep c t' x' → ItemsSim c env env' t t' (y :: xs) (y' :: xs') →
      ItemsSim c env env' t t' (x :: y :: xs) (x' :: y' :: xs')

theorem sepRest_sim (hc : NoOneLine c) (he : env.posRange = none) (he' : env'.posRange = none) {t t' : Tag}
    (ht : TagSim c t t') (p p' : Nat) : ∀ {x x' : SepItem} {xs xs' : List SepItem}, ItemsSim c env env' t t' (x :: xs) (x' :: xs') →
    ∀ ind, LSim (sepRest env c t p x xs ind) (sepRest env' c t' p' x' xs' ind)
  | x, x', [], [], h, ind, s, s', hs => by
    cases h with
    | last _ _ _ h =>
      have h := h p p' s s'
      unfold sepRest
      dsimp only
      split at h
      · next h1 =>
        rw [if_pos h1]
        split at h
        · next h2 => rw [if_pos h2, h]; exact ⟨hs.put _, rfl⟩
        · next h2 =>
          rw [if_neg h2, h]
          have : s.put [] = s := by cases s; simp [St.put]
          rw [this]; exact ⟨hs, rfl⟩
      · next h1 =>
        rw [if_neg h1]
        split at h
        · next h2 =>
          rw [if_pos h2, ← h]
          have : s'.put [] = s' := by cases s'; simp [St.put]
          rw [this]; exact ⟨hs, rfl⟩
        · next h2 => rw [if_neg h2]; exact ⟨hs, rfl⟩
  | x, x', [], _ :: _, h, _, _, _, _ => by cases h
  | x, x', _ :: _, [], h, _, _, _, _ => by cases h
  | x, x', y :: ys, y' :: ys', h, ind, s, s', hs => by
    cases h with
    | cons _ _ _ h4 h =>
      unfold sepRest
      dsimp only
      rw [← h4, ht.elementHint]
      obtain ⟨k1, k2, k3⟩ : SameGap c env env' y.pre y'.pre ∧ RSim c env env' y.item y'.item ∧ SameGap c env env' y.post y'.post := by
        cases h with
        | last h1 h2 h3 _ => exact ⟨h1, h2, h3⟩
        | cons h1 h2 h3 _ _ => exact ⟨h1, h2, h3⟩
      refine (itemGap_sim hc he he' ht k2 k1 _ _ _ (hs.put _)).bind fun q q' hq => ?_
      obtain ⟨a, n⟩ := q
      obtain ⟨b, n'⟩ := q'
      obtain ⟨h1, h2⟩ := hq
      cases h2
      refine (k2.w a b h1).bind fun q q' hq => ?_
      refine (hintW_sim k3 _ q q' hq).bind fun q q' hq => ?_
      exact sepRest_sim hc he he' ht p p' h (ind || n) q q' hq

theorem sepList_sim (hc : NoOneLine c) (he : env.posRange = none) (he' : env'.posRange = none) {t t' : Tag}
    (ht : TagSim c t t') (p p' : Nat) {xs xs' : List SepItem} (h : ItemsSim c env env' t t' xs xs') :
    LSim (sepList env c t p xs) (sepList env' c t' p' xs') := by
  intro s s' hs
  match xs, xs', h with
  | [], [], _ => exact ⟨hs, rfl⟩
  | x :: xs, x' :: xs', h =>
    obtain ⟨k1, k2, k3⟩ : SameGap c env env' x.pre x'.pre ∧ RSim c env env' x.item x'.item ∧ SameGap c env env' x.post x'.post := by
      cases h with
      | last h1 h2 h3 _ => exact ⟨h1, h2, h3⟩
      | cons h1 h2 h3 _ _ => exact ⟨h1, h2, h3⟩
    unfold sepList
    dsimp only
    refine (askFirst_sim hc ht p p' k2 s s' hs).bind fun q q' hq => ?_
    obtain ⟨a, n⟩ := q
    obtain ⟨b, n'⟩ := q'
    obtain ⟨h1, h2⟩ := hq
    cases h2
    refine (nlW_sim k1 _ _ a b h1).bind fun q q' hq => ?_
    refine (k2.w q q' hq).bind fun q q' hq => ?_
    refine (hintW_sim k3 _ q q' hq).bind fun q q' hq => ?_
    exact sepRest_sim hc he he' ht p p' h n q q' hq

/-- The items of two plain lists. -/
def PlainSim (c : Config) (env env' : Env) (x x' : Loc × R) : Prop :=
  SameGap c env env' x.1 x'.1 ∧ RSim c env env' x.2 x'.2

theorem listRest_sim (hc : NoOneLine c) (he : env.posRange = none) (he' : env'.posRange = none) {t : Tag} :
    ∀ {xs xs' : List (Loc × R)}, Pairs (PlainSim c env env') xs xs' → ∀ p p' ind,
    LSim (listRest env c t p xs ind) (listRest env' c t p' xs' ind)
  | _, _, .nil, _, _, _, _, _, hs => ⟨hs, rfl⟩
  | (l, r) :: xs, (l', r') :: xs', .cons ⟨h1, h2⟩ h, p, p', ind, s, s', hs => by
    unfold listRest
    have h1 : SameGap c env env' l l' := h1
    have h2 : RSim c env env' r r' := h2
    rw [h2.node.tag.itemHint]
    refine (itemGap_sim hc he he' .refl h2 h1 _ s s' hs).bind fun q q' hq => ?_
    obtain ⟨a, n⟩ := q
    obtain ⟨b, n'⟩ := q'
    obtain ⟨k1, k2⟩ := hq
    cases k2
    refine (h2.w a b k1).bind fun q q' hq => ?_
    exact listRest_sim hc he he' h _ _ _ q q' hq

theorem plainList_sim (hc : NoOneLine c) (he : env.posRange = none) (he' : env'.posRange = none) {t : Tag} (p p' : Nat)
    {xs xs' : List (Loc × R)} (h : Pairs (PlainSim c env env') xs xs') :
    LSim (plainList env c t p xs) (plainList env' c t p' xs') := by
  intro s s' hs
  cases h with
  | nil => exact ⟨hs, rfl⟩
  | @cons x x' xs xs' hx h =>
    obtain ⟨l, r⟩ := x
    obtain ⟨l', r'⟩ := x'
    have h1 : SameGap c env env' l l' := hx.1
    have h2 : RSim c env env' r r' := hx.2
    unfold plainList
    dsimp only
    refine (askFirst_sim hc .refl p p' h2 s s' hs).bind fun q q' hq => ?_
    obtain ⟨a, n⟩ := q
    obtain ⟨b, n'⟩ := q'
    obtain ⟨k1, k2⟩ := hq
    cases k2
    refine (nlW_sim h1 _ _ a b k1).bind fun q q' hq => ?_
    refine (h2.w q q' hq).bind fun q q' hq => ?_
    exact listRest_sim hc he he' h _ _ _ q q' hq

theorem zip_sim {ls ls' : List Loc} {rs rs' : List R} (h1 : Pairs (SameGap c env env') ls ls') (h2 : Pairs (RSim c env env') rs rs') :
    Pairs (PlainSim c env env') (ls.zip rs) (ls'.zip rs') := by
  induction h1 generalizing rs rs' with
  | nil => simp only [List.zip_nil_left]; exact .nil
  | cons ha _ ih =>
    cases h2 with
    | nil => simp only [List.zip_nil_right]; exact .nil
    | cons hb h2 => exact .cons ⟨ha, hb⟩ (ih h2)

/-- The separators of two lists with these tags. -/
inductive SepPair (c : Config) (t t' : Tag) : List Str → List Str → Prop
  | same {ss} : t = t' → SepPair c t t' ss ss
  | fields {ss ss' us us' i j} : t = .fields us i j → t' = .fields us' i j → SepsSim c ss ss' → SepPair c t t' ss ss'

theorem lastText_eq (hc : NoOneLine c) {us : List Str} {i j : Option Bool} (p : Nat) (s : St) (x : SepItem) :
    (if trailingSeparator c (.fields us i j) p s = none ∧ x.sep ≠ [] ∨ trailingSeparator c (.fields us i j) p s = some true
      then getSep c (.fields us i j) x else []) = lastText c x.sep := by
  unfold trailingSeparator lastText getSep separator
  simp only [hc.table, false_and, if_false]
  cases c.bool .writeTrailingFieldSeparator with
  | none => by_cases h : x.sep = [] <;> simp [h]
  | some b => cases b <;> simp

theorem trailing_indep (hc : NoOneLine c) (t : Tag) (p p' : Nat) (s s' : St) :
    trailingSeparator c t p s = trailingSeparator c t p' s' := by
  unfold trailingSeparator
  cases t <;> simp [hc.table]

theorem sepItems_sim (hc : NoOneLine c) {t t' : Tag} : ∀ {ss ss' : List Str} {ls ls' : List Loc} {rs rs' : List R}, SepPair c t t' ss ss' →
    Pairs (SameGap c env env') ls ls' → Pairs (RSim c env env') rs rs' → ItemsSim c env env' t t' (sepItems ls rs ss) (sepItems ls' rs' ss') := by
  intro ss
  induction ss with
  | nil =>
    intro ss' ls ls' rs rs' hs h1 h2
    have : ss' = [] := by
      cases hs with
      | same _ => rfl
      | fields _ _ h => cases h; rfl
    subst this
    have e : ∀ ls rs, sepItems ls rs [] = [] := by
      intro ls rs; unfold sepItems; split
      · next h => cases h
      · rfl
    rw [e, e]; exact .nil
  | cons u ss ih =>
    intro ss' ls ls' rs rs' hs h1 h2
    match ls, ls', rs, rs', h1, h2 with
    | _, _, _, _, .nil, _ => exact .nil
    | _, _, _, _, .cons _ .nil, _ => exact .nil
    | _, _, _, _, .cons _ (.cons _ _), .nil => simp only [sepItems]; exact .nil
    | a :: b :: ls, a' :: b' :: ls', r :: rs, r' :: rs', .cons ha (.cons hb hl), .cons hr h2 =>
      cases hs with
      | same e =>
        subst e
        have := ih (ss' := ss) (.same (c := c) rfl) hl h2
        simp only [sepItems]
        generalize sepItems ls rs ss = xs at this
        generalize sepItems ls' rs' ss = xs' at this
        have hlast : ItemsSim c env env' t t [⟨a, r, b, u⟩] [⟨a', r', b', u⟩] :=
          .last ha hr hb fun p p' s s' => by rw [trailing_indep hc t p p' s s']; rfl
        cases this with
        | nil => exact hlast
        | last k1 k2 k3 k4 => exact .cons ha hr hb rfl (.last k1 k2 k3 k4)
        | cons k1 k2 k3 k4 k5 => exact .cons ha hr hb rfl (.cons k1 k2 k3 k4 k5)
      | @fields _ us us' i j e1 e2 h =>
        subst e1 e2
        cases h with
        | @last _ s' h =>
          have e : ∀ ls rs, sepItems ls rs [] = [] := by
            intro ls rs; unfold sepItems; split
            · next h => cases h
            · rfl
          simp only [sepItems, e]
          refine .last ha hr hb fun p p' s s' => ?_
          rw [lastText_eq hc, lastText_eq hc]
          exact h
        | @cons _ s' w w' ws ws' h h4 h3 =>
          have := ih (ss' := w' :: ws') (.fields rfl rfl h3) hl h2
          simp only [sepItems]
          generalize sepItems ls rs (w :: ws) = xs at this
          generalize sepItems ls' rs' (w' :: ws') = xs' at this
          have hlast : ItemsSim c env env' (.fields us i j) (.fields us' i j) [⟨a, r, b, u⟩] [⟨a', r', b', s'⟩] :=
            .last ha hr hb fun p p' s s' => by rw [lastText_eq hc, lastText_eq hc]; exact h4
          cases this with
          | nil => exact hlast
          | last k1 k2 k3 k4 => exact .cons ha hr hb h (.last k1 k2 k3 k4)
          | cons k1 k2 k3 k4 k5 => exact .cons ha hr hb h (.cons k1 k2 k3 k4 k5)

theorem listW_sim (hc : NoOneLine c) (he : env.posRange = none) (he' : env'.posRange = none) {t t' : Tag} (ht : TagSim c t t')
    (sp sp' : Loc) {ls ls' : List Loc} {rs rs' : List R} (h1 : Pairs (SameGap c env env') ls ls') (h2 : Pairs (RSim c env env') rs rs') :
    LSim (listW env t sp ls rs c) (listW env' t' sp' ls' rs' c) := by
  intro s s' hs
  unfold listW
  cases ht with
  | refl =>
    cases hq : t.seps with
    | some ss => exact sepList_sim hc he he' .refl _ _ (sepItems_sim hc (.same rfl) h1 h2) s s' hs
    | none =>
      dsimp only
      split
      · exact plainList_sim hc he he' _ _ (zip_sim h1 h2) s s' hs
      · exact ⟨hs, rfl⟩
  | fields h =>
    exact sepList_sim hc he he' (.fields h) _ _ (sepItems_sim hc (.fields rfl rfl h) h1 h2) s s' hs

/-! ### Arms -/

theorem AlikeAll.nil_iff {ns ns' : List Node} (h : AlikeAll c env env' ns ns') : ns' = [] ↔ ns = [] := by
  cases h <;> simp

theorem testIndent_sim {r r' : R} (hr : RSim c env env' r r') {l l' : Loc} (hl : SameGap c env env' l l') (h : Str) :
    LSim (testIndent env c r l h) (testIndent env' c r' l' h) := by
  intro s s' hs
  have hlist : ∀ t t', StSim t t' → ResSim StSimB
      (match r.wl c t with
        | .panic => .panic
        | .err => .ok (s, false)
        | .ok (st2, b) => .ok ({ s with cells := st2.cells }, b))
      (match r'.wl c t' with
        | .panic => .panic
        | .err => .ok (s', false)
        | .ok (st2, b) => .ok ({ s' with cells := st2.cells }, b)) := by
    intro t t' ht
    have := hr.wl t t' ht
    cases h1 : r.wl c t <;> cases h2 : r'.wl c t' <;> rw [h1, h2] at this
    case ok.ok a b =>
      obtain ⟨a, x⟩ := a
      obtain ⟨b, y⟩ := b
      obtain ⟨k1, k2⟩ := this
      cases k2
      exact ⟨hs.cells k1, rfl⟩
    all_goals first | exact this.elim | exact ⟨hs, rfl⟩ | trivial
  have hwith : ∀ {k k' : St → Res (St × Bool)}, (∀ t t', StSim t t' → ResSim StSimB (k t) (k' t')) → ResSim StSimB
      (match hintW env c l h s with
        | .panic => .panic
        | .err => .ok (s, false)
        | .ok st1 => k st1)
      (match hintW env' c l' h s' with
        | .panic => .panic
        | .err => .ok (s', false)
        | .ok st1 => k' st1) := by
    intro k k' hk
    have := hintW_sim hl h s s' hs
    cases h1 : hintW env c l h s <;> cases h2 : hintW env' c l' h s' <;> rw [h1, h2] at this
    case ok.ok a b => exact hk _ _ this
    all_goals first | exact this.elim | exact ⟨hs, rfl⟩ | trivial
  have hk := hr.node.kids
  have ht := hr.node.tag
  have hfields : ResSim StSimB
      (if r.node.kids = [] then pure (s, false) else
        match hintW env c l h s with
        | .panic => .panic
        | .err => .ok (s, false)
        | .ok st1 => match r.wl c st1 with
          | .panic => .panic
          | .err => .ok (s, false)
          | .ok (st2, b) => .ok ({ s with cells := st2.cells }, b))
      (if r'.node.kids = [] then pure (s', false) else
        match hintW env' c l' h s' with
        | .panic => .panic
        | .err => .ok (s', false)
        | .ok st1 => match r'.wl c st1 with
          | .panic => .panic
          | .err => .ok (s', false)
          | .ok (st2, b) => .ok ({ s' with cells := st2.cells }, b)) := by
    simp only [hk.nil_iff]
    split
    · exact ⟨hs, rfl⟩
    · exact hwith (fun t t' ht => hlist t t' ht)
  unfold testIndent
  dsimp only
  generalize r.node.tag = t at ht
  generalize r'.node.tag = t' at ht
  cases ht with
  | fields _ => exact hfields
  | refl =>
    cases t <;> first | exact ⟨hs, rfl⟩ | exact hfields | skip
    · dsimp only
      simp only [hk.nil_iff]
      split
      · exact ⟨hs, rfl⟩
      · rw [hk.length]
        split
        · exact ⟨hs, rfl⟩
        · refine hwith fun t t' ht => ?_
          split
          · split
            · exact ⟨hs, rfl⟩
            · exact hlist t t' ht
          · exact ⟨hs, rfl⟩
    · dsimp only
      simp only [hk.nil_iff]
      split
      · exact ⟨hs, rfl⟩
      · refine hwith fun t t' ht => ?_
        split
        · split
          · exact ⟨hs, rfl⟩
          · exact hlist t t' ht
        · exact ⟨hs, rfl⟩

theorem locAt_sim (hz : SameGap c env env' ⟨0, 0⟩ ⟨0, 0⟩) {ls ls' : List Loc} (h : Pairs (SameGap c env env') ls ls') :
    ∀ i, SameGap c env env' (locAt ls i) (locAt ls' i) := by
  induction h with
  | nil => intro i; exact hz
  | cons h _ ih =>
    intro i
    cases i with
    | zero => exact h
    | succ i => exact ih i

theorem pairs_get {α β : Type} {P : α → β → Prop} {as : List α} {bs : List β} (h : Pairs P as bs) :
    ∀ i : Nat, (as[i]? = none ∧ bs[i]? = none) ∨ ∃ a b, as[i]? = some a ∧ bs[i]? = some b ∧ P a b := by
  induction h with
  | nil => intro i; exact .inl ⟨rfl, rfl⟩
  | cons h _ ih =>
    intro i
    cases i with
    | zero => exact .inr ⟨_, _, rfl, rfl, h⟩
    | succ i => simp only [List.getElem?_cons_succ]; exact ih i

theorem kidW_sim {rs rs' : List R} (h : Pairs (RSim c env env') rs rs') (i : Nat) : WSim (kidW rs i c) (kidW rs' i c) := by
  intro s s' hs
  unfold kidW
  rcases pairs_get h i with ⟨h1, h2⟩ | ⟨r, r', h1, h2, h3⟩
  · rw [h1, h2]; trivial
  · rw [h1, h2]; exact h3.w s s' hs

section
variable (hz : SameGap c env env' ⟨0, 0⟩ ⟨0, 0⟩) {ls ls' : List Loc} {rs rs' : List R}
  (h1 : Pairs (SameGap c env env') ls ls') (h2 : Pairs (RSim c env env') rs rs')
include hz h1 h2

theorem runEl_sim (e : El) : WSim (runEl env ls rs c e) (runEl env' ls' rs' c e) := by
  intro s s' hs
  cases e with
  | lit x => exact hs.put x
  | hint i h => exact hintW_sim (locAt_sim hz h1 i) h s s' hs
  | nl b i h => exact nlW_sim (locAt_sim hz h1 i) b h s s' hs
  | kid i => exact kidW_sim h2 i s s' hs
  | inc => exact hs.inc none
  | dec => exact hs.dec
  | incF => exact hs.fnc 1
  | decF => exact hs.fnc (-1)

theorem runAll_sim {α : Type} {run run' : α → W} (h : ∀ x, WSim (run x) (run' x)) : ∀ (xs : List α), WSim (runAll run xs) (runAll run' xs)
  | [], _, _, hs => hs
  | x :: xs, s, s', hs => by
    unfold runAll
    exact (h x s s' hs).bind fun q q' hq => runAll_sim h xs q q' hq

theorem runEls_sim (es : List El) : WSim (runAll (runEl env ls rs c) es) (runAll (runEl env' ls' rs' c) es) :=
  runAll_sim hz h1 h2 (runEl_sim hz h1 h2) es

theorem runFm_sim (e : Fm) : WSim (runFm env ls rs c e) (runFm env' ls' rs' c e) := by
  cases e with
  | el e => exact runEl_sim hz h1 h2 e
  | ind k i h body =>
    intro s s' hs
    unfold runFm
    dsimp only
    rcases pairs_get h2 k with ⟨k1, k2⟩ | ⟨r, r', k1, k2, k3⟩
    · rw [k1, k2]; trivial
    · rw [k1, k2]
      dsimp only
      refine (testIndent_sim k3 (locAt_sim hz h1 i) h s s' hs).bind fun q q' hq => ?_
      obtain ⟨a, x⟩ := q
      obtain ⟨b, y⟩ := q'
      obtain ⟨k4, k5⟩ := hq
      cases k5
      have k4 : StSim a b := k4
      cases x
      · exact (runEls_sim hz h1 h2 body a b k4).bind fun q q' hq => hq
      · exact (runEls_sim hz h1 h2 body _ _ (k4.inc none)).bind fun q q' hq => hq.dec

theorem binaryW_sim (op : Str) : WSim (binaryW env op ls rs c) (binaryW env' op ls' rs' c) := by
  intro s s' hs
  unfold binaryW
  refine (kidW_sim h2 0 _ _ (hs.inc _)).bind fun a b hab => ?_
  dsimp only
  split
  · refine (testOneline_sim (w := fun c => runAll (runEl env ls rs c) _) (w' := fun c => runAll (runEl env' ls' rs' c) _)
        (runEls_sim hz h1 h2 _) a b hab).bind fun q q' hq => ?_
    obtain ⟨a, x⟩ := q
    obtain ⟨b, y⟩ := q'
    obtain ⟨k4, k5⟩ := hq
    cases k5
    exact runEls_sim hz h1 h2 _ a b k4
  · exact runEls_sim hz h1 h2 _ a b hab

theorem tableW_sim (hc : NoOneLine c) (i j : Option Bool) (sp sp' : Loc) : WSim (tableW env i j sp ls rs c) (tableW env' i j sp' ls' rs' c) := by
  intro s s' hs
  unfold tableW
  dsimp only
  rw [hs.one, hs.one']
  refine (nlW_sim hz _ _ s s' hs).bind fun a b hab => ?_
  have h3 : StSim { a.put ['{'] with fn := (a.put ['{']).fn + 1 } { b.put ['{'] with fn := (b.put ['{']).fn + 1 } := (hab.put _).fnc 1
  rcases pairs_get h2 0 with ⟨k1, k2⟩ | ⟨r, r', k1, k2, k3⟩
  · rw [k1, k2]; trivial
  · rw [k1, k2]
    dsimp only
    rw [if_neg (by rintro ⟨h, _⟩; exact hc.table h), if_neg (by rintro ⟨h, _⟩; exact hc.table h)]
    simp only [Res.pure_eq, Res.bind_ok, if_true]
    have ht := k3.node.tag
    have hcell : StSim
        (match r.node.tag with
          | .fields _ _ _ => { { a.put ['{'] with fn := a.fn + 1 } with cells := { a.cells with indent := upd a.cells.indent r.node.span.l true } }
          | _ => { a.put ['{'] with fn := a.fn + 1 })
        (match r'.node.tag with
          | .fields _ _ _ => { { b.put ['{'] with fn := b.fn + 1 } with cells := { b.cells with indent := upd b.cells.indent r'.node.span.l true } }
          | _ => { b.put ['{'] with fn := b.fn + 1 }) := by
      have hx : StSim { a.put ['{'] with fn := a.fn + 1 } { b.put ['{'] with fn := b.fn + 1 } := h3
      have hy : ∀ p p', StSim { { a.put ['{'] with fn := a.fn + 1 } with cells := { a.cells with indent := upd a.cells.indent p true } }
          { { b.put ['{'] with fn := b.fn + 1 } with cells := { b.cells with indent := upd b.cells.indent p' true } } :=
        fun p p' => ⟨hx.f, hx.lvl, hx.stack, hx.fn, hab.one, hab.one'⟩
      generalize r.node.tag = t at ht
      generalize r'.node.tag = t' at ht
      cases ht with
      | fields _ => exact hy _ _
      | refl => cases t <;> first | exact hx | exact hy _ _
    refine (hintW_sim (locAt_sim hz h1 0) _ _ _ (hcell.inc none)).bind fun a b hab => ?_
    refine (k3.w a b hab).bind fun a b hab => ?_
    rw [hab.f]
    refine (nlW_sim (locAt_sim hz h1 1) _ _ _ _ (hab.dec.fnc (-1))).bind fun a b hab => ?_
    exact hab.put _

theorem tableEmptyW_sim : WSim (tableEmptyW env ls c) (tableEmptyW env' ls' c) := by
  intro s s' hs
  unfold tableEmptyW
  dsimp only
  rw [hs.lvl, locAt_sim hz h1 0]
  cases commentHint env c s.lvl (locAt ls 0) ((c.str .hintTableConstructor).getD []) [] with
  | err => trivial
  | panic => trivial
  | ok x =>
    simp only [Res.bind_ok]
    exact (nlW_sim (locAt_sim hz h1 0) _ _ _ _ (hs.put _)).bind fun a b hab => hab.put _

theorem plainW_sim (hc : NoOneLine c) (he : env.posRange = none) (he' : env'.posRange = none) {t t' : Tag} (ht : TagSim c t t')
    (sp sp' : Loc) : WSim (plainW env t sp ls rs c) (plainW env' t' sp' ls' rs' c) := by
  have hlist : WSim (fun st => do let (st, _) ← listW env t sp ls rs c st; pure st)
      (fun st => do let (st, _) ← listW env' t' sp' ls' rs' c st; pure st) := by
    intro s s' hs
    refine (listW_sim hc he he' ht sp sp' h1 h2 s s' hs).bind fun q q' hq => ?_
    exact hq.1
  cases ht with
  | fields _ => exact hlist
  | refl =>
    have hgen : WSim (match t.template c with
        | some fms => runAll (runFm env ls rs c) fms
        | none => fun st => do let (st, _) ← listW env t sp ls rs c st; pure st)
      (match t.template c with
        | some fms => runAll (runFm env' ls' rs' c) fms
        | none => fun st => do let (st, _) ← listW env' t sp' ls' rs' c st; pure st) := by
      cases t.template c with
      | none => exact hlist
      | some fms => exact runAll_sim hz h1 h2 (runFm_sim hz h1 h2) fms
    unfold plainW
    cases t <;> first | exact hgen | exact binaryW_sim hz h1 h2 _ | exact tableW_sim hz h1 h2 hc _ _ _ _ | exact tableEmptyW_sim hz h1 h2

theorem armW_sim (hc : NoOneLine c) (he : env.posRange = none) (he' : env'.posRange = none) {t t' : Tag} (ht : TagSim c t t')
    (sp sp' : Loc) : WSim (armW env t sp ls rs c) (armW env' t' sp' ls' rs' c) := by
  have hone : ∀ t sp st, onelineCfg c t sp st = none := by
    intro t sp st
    have e1 : (c.bool .forceSingleLineTable == some true) = false := by
      simpa using hc.table
    have hgen : (if t.isIf then
        if (c.num .maxWidth).isSome && c.bool .forceSingleLineIf == some true && (c.num .newlineFormatIf).isSome && narrow c sp then
          some (c.setNum .newlineFormatIf none) else none
      else if t.isFuncBody then
        if (c.num .maxWidth).isSome && (c.num .newlineFormatFunction).isSome && narrow c sp &&
            ((st.fn == 0 && c.bool .forceSingleLineTopLevelFunction == some true) ||
              (decide (0 < st.fn) && c.bool .forceSingleLineScopedFunction == some true)) then
          some (c.setNum .newlineFormatFunction none) else none
      else none) = none := by
      rcases hc.width with hw | ⟨k1, k2, k3, _⟩
      · simp [hw]
      · have k1 : (c.bool .forceSingleLineIf == some true) = false := by simpa using k1
        have k2 : (c.bool .forceSingleLineTopLevelFunction == some true) = false := by simpa using k2
        have k3 : (c.bool .forceSingleLineScopedFunction == some true) = false := by simpa using k3
        simp [k1, k2, k3]
    unfold onelineCfg
    cases t <;> first | exact hgen | simp [e1]
  intro s s' hs
  unfold armW
  rw [hone, hone]
  exact plainW_sim hz h1 h2 hc he he' ht sp sp' s s' hs

theorem writeW_sim (hc : NoOneLine c) (he : env.posRange = none) (he' : env'.posRange = none) {t t' : Tag} (ht : TagSim c t t')
    (sp sp' : Loc) : WSim (writeW env t sp ls rs c) (writeW env' t' sp' ls' rs' c) := by
  have ha := armW_sim hz h1 h2 hc he he' ht sp sp'
  unfold writeW
  rw [he, he']
  simp only [outOfRange, notContained, Bool.and_false, Bool.false_eq_true, if_false]
  cases ht with
  | fields _ => exact ha
  | refl =>
    cases hl : t.leafText with
    | some x => intro s s' hs; exact hs.put x
    | none =>
      dsimp only
      cases t.shape <;> exact ha
end

/-! ### Trees -/

mutual
theorem mkR_sim (hc : NoOneLine c) (he : env.posRange = none) (he' : env'.posRange = none)
    (hz : SameGap c env env' ⟨0, 0⟩ ⟨0, 0⟩) : ∀ {n n' : Node}, Alike c env env' n n' → RSim c env env' (mkR env n) (mkR env' n')
  | .mk t sp ls ks, n', h => by
    cases h with
    | @mk _ t' _ sp' _ ls' _ ks' h1 h2 h3 =>
    have hk := mkRs_sim hc he he' hz h3
    exact ⟨.mk h1 h2 h3, writeW_sim hz h2 hk hc he he' h1 sp sp', listW_sim hc he he' h1 sp sp' h2 hk, runEls_sim hz h2 hk _⟩
theorem mkRs_sim (hc : NoOneLine c) (he : env.posRange = none) (he' : env'.posRange = none)
    (hz : SameGap c env env' ⟨0, 0⟩ ⟨0, 0⟩) : ∀ {ns ns' : List Node}, AlikeAll c env env' ns ns' →
    Pairs (RSim c env env') (mkRs env ns) (mkRs env' ns')
  | [], ns', h => by
    cases h
    exact .nil
  | n :: ns, ns', h => by
    cases h with
    | cons h1 h2 => exact .cons (mkR_sim hc he he' hz h1) (mkRs_sim hc he he' hz h2)
end

/-- Trees that are alike are written alike. -/
theorem writeTree_alike (hc : NoOneLine c) (he : env.posRange = none) (he' : env'.posRange = none)
    (hz : SameGap c env env' ⟨0, 0⟩ ⟨0, 0⟩) {n n' : Node} (h : Alike c env env' n n') :
    writeTree env' c n' = writeTree env c n := by
  have := (mkR_sim hc he he' hz h).w St.init St.init ⟨rfl, rfl, rfl, rfl, rfl, rfl⟩
  unfold writeTree
  cases h1 : (mkR env n).w c St.init <;> cases h2 : (mkR env' n').w c St.init <;> rw [h1, h2] at this
  case ok.ok a b => exact congrArg Res.ok this.f
  all_goals first | exact this.elim | rfl

end Luafmt
