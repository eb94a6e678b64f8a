import Verif.Model.Formatter
import Verif.Spec.Options

/-
What a node prints, as a sequence of literal texts and gaps, and what it means that a text is a
rendering of such a sequence. Helper definitions of the proofs about the printer.
-/
namespace Luafmt

/-! ### Variants of a configuration -/

/-- Options that the one-line tests may switch off (numbers). -/
def Switched (o : NOpt) : Prop :=
  o = .newlineFormatTableConstructor ∨ o = .newlineFormatTableField ∨ o = .newlineFormatIf ∨
  o = .newlineFormatFunction

/-- Options that the one-line tests may switch off (booleans). -/
def SwitchedB (o : BOpt) : Prop :=
  o = .writeTrailingFieldSeparator ∨ o = .writeNewlineAtMultilineTable ∨
  o = .writeNewlineAtExplistMultilineTable

/-- `c'` is `c` with some of the options switched off that one-line tests switch off. -/
structure Variant (c c' : Config) : Prop where
  str : ∀ o, c'.str o = c.str o
  bool : ∀ o, ¬ SwitchedB o → c'.bool o = c.bool o
  boolOff : ∀ o, SwitchedB o → c'.bool o = c.bool o ∨
    (c'.bool o = some false ∧ c.bool .forceSingleLineTable = some true)
  num : ∀ o, ¬ Switched o → c'.num o = c.num o
  numOff : ∀ o, Switched o → c'.num o = c.num o ∨ c'.num o = none

theorem Variant.refl (c : Config) : Variant c c :=
  ⟨fun _ => rfl, fun _ _ => rfl, fun _ _ => .inl rfl, fun _ _ => rfl, fun _ _ => .inl rfl⟩

/-- Options that can put a newline where the source has none. -/
def NlOpt (c : Config) : Prop :=
  (∃ o n, c.num o = some n ∧ Spec.asksLines o n = true) ∨ c.bool .writeNewlineAtEof = some true ∨
  c.bool .writeNewlineAtMultilineTable = some true ∨
  c.bool .writeNewlineAtExplistMultilineTable = some true

theorem Variant.nlOpt {c c' : Config} (h : Variant c c') (hn : NlOpt c') : NlOpt c := by
  rcases hn with ⟨o, n, ho, ha⟩ | hn | hn | hn
  · left
    refine ⟨o, n, ?_, ha⟩
    by_cases hs : Switched o
    · rcases h.numOff o hs with e | e
      · rw [← e]; exact ho
      · rw [e] at ho; cases ho
    · rw [← h.num o hs]; exact ho
  · right; left
    rw [← h.bool _ (by unfold SwitchedB; decide)]; exact hn
  · right; right; left
    rcases h.boolOff .writeNewlineAtMultilineTable (by unfold SwitchedB; decide) with e | e
    · rw [← e]; exact hn
    · rw [e.1] at hn; cases hn
  · right; right; right
    rcases h.boolOff .writeNewlineAtExplistMultilineTable (by unfold SwitchedB; decide) with e | e
    · rw [← e]; exact hn
    · rw [e.1] at hn; cases hn

/-! ### Items -/

/-- An element of the printed sequence: a literal (its source text and the text that is printed), a gap with
the hint at this place, the additional gap before a table, the separator after the last item of a list. -/
inductive Item where
  | lit (src out : Str)
  | gap (loc : Loc) (h : Str)
  | extra (h : Str)
  | trail (isFields : Bool) (src out : Str)

/-- A part of an arm of the printer. -/
inductive Slot where
  | lit (s : Str)
  | gap (i : Nat) (h : Str)
  | kid (i : Nat)
  | extra (h : Str)

def El.slots : El → List Slot
  | .lit s => [.lit s]
  | .hint i h => [.gap i h]
  | .nl _ i h => [.gap i h]
  | .kid i => [.kid i]
  | _ => []

def Fm.slots : Fm → List Slot
  | .el e => e.slots
  | .ind _ _ _ body => body.flatMap El.slots

/-- The hint inside tables. -/
def tableHint (c : Config) : Str := (c.str .hintTableConstructor).getD []

/-- The parts of an arm that prints a fixed sequence. -/
def frame (c : Config) (t : Tag) : Option (List Slot) :=
  match t with
  | .binaryOp op => some [.kid 0, .gap 0 [' '], .lit op, .gap 1 [' '], .kid 1]
  | .tableConstructor _ _ =>
    some [.extra (tableHint c), .lit ['{'], .gap 0 (tableHint c), .kid 0, .gap 1 (tableHint c), .lit ['}']]
  | .tableConstructorEmpty => some [.lit ['{'], .gap 0 (tableHint c), .lit ['}']]
  | t => (t.template c).map (·.flatMap Fm.slots)

def slotItems (locs : List Loc) (ks : List (List Item)) : Slot → List Item
  | .lit s => [.lit s s]
  | .gap i h => [.gap (locAt locs i) h]
  | .kid i => ks[i]?.getD []
  | .extra h => [.extra h]

/-- Is this the tag of a field list? -/
def Tag.isFields : Tag → Bool
  | .fields _ _ _ => true
  | _ => false

/-- The items of a separated list; `h` is the hint before the first one. -/
def sepIs (c : Config) (tag : Tag) : Str → List Loc → List (List Item) → List Str → List Item
  | h, pre :: post :: ls, k :: ks, s :: ss =>
    let out := (separator c tag).getD s
    let rest := sepIs c tag (elementHint tag) ls ks ss
    .gap pre h :: (k ++ .gap post [] ::
      (if rest.isEmpty then [.trail tag.isFields s out] else .lit s out :: rest))
  | _, _, _, _ => []

/-- The items of a plain list after its first one. -/
def plainIs : List Loc → List (Tag × List Item) → List Item
  | l :: ls, (t, k) :: ks => .gap l (itemHint t) :: (k ++ plainIs ls ks)
  | _, _ => []

/-- The items of a plain list. -/
def plainIs0 : List Loc → List (Tag × List Item) → List Item
  | l :: ls, (_, k) :: ks => .gap l [] :: (k ++ plainIs ls ks)
  | _, _ => []

/-- The items of a node, from the items of its children. -/
def itemsOf (c : Config) (tag : Tag) (locs : List Loc) (tags : List Tag) (ks : List (List Item)) : List Item :=
  match tag.leafText with
  | some s => [.lit s (((annotateTag c none tag []).leafText).getD s)]
  | none =>
    match frame c tag with
    | some fr => fr.flatMap (slotItems locs ks)
    | none =>
      match tag.seps with
      | some ss => sepIs c tag [] locs ks ss
      | none => if tag.isPlainList then plainIs0 locs (tags.zip ks) else []

mutual
/-- The items of a node of the syntax tree (before reconstruction). -/
def Node.items (c : Config) : Node → List Item
  | .mk tag _ locs kids => itemsOf c tag locs (kids.map Node.tag) (Node.itemsAll c kids)
def Node.itemsAll (c : Config) : List Node → List (List Item)
  | [] => []
  | n :: ns => n.items c :: Node.itemsAll c ns
end

/-! ### Renderings -/

/-- One gap of the output: `f` becomes `f'`. A prefix of `f` may be invisible to the gap printer (one-line
tests print to an empty text that is appended later), where no newline is asked for. -/
def GapStep (env : Env) (c : Config) (loc : Loc) (h : Str) (f f' : Str) : Prop :=
  ∃ (p f0 g : Str) (lvl : Int) (b : Bool), f = p ++ f0 ∧ f' = p ++ g ∧
    ifNewLine c lvl b (commentHint env c lvl loc) h f0 = .ok g ∧
    (b = true → NlOpt c ∨ ∃ t, commentHint env c lvl loc h [] = .ok t ∧ hasNewlines t = true) ∧ (b = true → p = [])

/-- The same, where a newline is only asked for by an option. -/
def PlainStep (env : Env) (c : Config) (loc : Loc) (h : Str) (f f' : Str) : Prop :=
  ∃ (p f0 g : Str) (lvl : Int) (b : Bool), f = p ++ f0 ∧ f' = p ++ g ∧
    ifNewLine c lvl b (commentHint env c lvl loc) h f0 = .ok g ∧ (b = true → NlOpt c) ∧ (b = true → p = [])

theorem PlainStep.gapStep {env : Env} {c : Config} {loc : Loc} {h f f' : Str} (hs : PlainStep env c loc h f f') :
    GapStep env c loc h f f' := by
  obtain ⟨p, f0, g, lvl, b, h1, h2, h3, h4, h5⟩ := hs
  exact ⟨p, f0, g, lvl, b, h1, h2, h3, fun e => .inl (h4 e), h5⟩

/-- The same for a gap before the items `is`: a newline is only asked for by an option, or the gap is that of an empty table. -/
def StepAt (env : Env) (c : Config) (loc : Loc) (h : Str) (is : List Item) (f f' : Str) : Prop :=
  GapStep env c loc h f f' ∧
    (PlainStep env c loc h f f' ∨ (f.getLast? = some '{' ∧ ∃ is', is = .lit ['}'] ['}'] :: is'))

theorem PlainStep.stepAt {env : Env} {c : Config} {loc : Loc} {h f f' : Str} {is : List Item} (hs : PlainStep env c loc h f f') :
    StepAt env c loc h is f f' := ⟨hs.gapStep, .inl hs⟩

theorem StepAt.append {env : Env} {c : Config} {loc : Loc} {h f f' : Str} {is : List Item} (hs : StepAt env c loc h is f f')
    (js : List Item) : StepAt env c loc h (is ++ js) f f' :=
  ⟨hs.1, hs.2.imp id fun ⟨h1, is', h2⟩ => ⟨h1, is' ++ js, by rw [h2]; rfl⟩⟩

/-- Is the trailing separator of a list printed? -/
def TrailOk (c : Config) (isFields : Bool) (src : Str) (b : Bool) : Prop :=
  let opt := match c.bool .writeTrailingFieldSeparator with
    | some v => v
    | none => decide (src ≠ [])
  if isFields then b = opt ∨ (b = false ∧ c.bool .forceSingleLineTable = some true)
  else b = false

/-- The text does not end in a space or a tab. -/
def NoTab (P : Str) : Prop := P.getLast? ≠ some ' ' ∧ P.getLast? ≠ some '\t'

/-- What does not end in a space or a tab at the beginning of `f` is still there in `f'`. -/
def Grows (f f' : Str) : Prop := ∀ P : Str, NoTab P → P <+: f → P <+: f'

/-- `Emits L env c is f f'`: the text `f'` is `f` followed by a rendering of the items (or `L` holds: with
`L = True` only `Grows f f'` is said about the texts). -/
inductive Emits (L : Prop) (env : Env) (c : Config) : List Item → Str → Str → Prop
  | free {is : List Item} {f f' : Str} : L → Grows f f' → Emits L env c is f f'
  | nil {f : Str} : Emits L env c [] f f
  | lit {is : List Item} {src out f f' : Str} :
      Emits L env c is (f ++ out) f' → Emits L env c (.lit src out :: is) f f'
  | litRaw {is : List Item} {src out f f' : Str} : env.posRange ≠ none →
      Emits L env c is (f ++ src) f' → Emits L env c (.lit src out :: is) f f'
  | gap {is : List Item} {loc : Loc} {h f f1 f' : Str} : PlainStep env c loc h f f1 →
      Emits L env c is f1 f' → Emits L env c (.gap loc h :: is) f f'
  | gapRaw {is : List Item} {loc : Loc} {h s f f' : Str} : env.posRange ≠ none →
      substr env.buf loc env.buf 0 = .ok s →
      Emits L env c is (f ++ s) f' → Emits L env c (.gap loc h :: is) f f'
  | extra {is : List Item} {h f f1 f' : Str} : PlainStep env c ⟨0, 0⟩ h f f1 →
      Emits L env c is f1 f' → Emits L env c (.extra h :: is) f f'
  | extraRaw {is : List Item} {h f f' : Str} : env.posRange ≠ none →
      Emits L env c is f f' → Emits L env c (.extra h :: is) f f'
  | trail {is : List Item} {isF : Bool} {src out f f' : Str} (b : Bool) : TrailOk c isF src b →
      Emits L env c is (if b then f ++ out else f) f' → Emits L env c (.trail isF src out :: is) f f'
  | trailRaw {is : List Item} {isF : Bool} {src out f f' : Str} : env.posRange ≠ none →
      Emits L env c is (f ++ src) f' → Emits L env c (.trail isF src out :: is) f f'
  | emptyTable {is : List Item} {loc : Loc} {h f f1 f' : Str} : GapStep env c loc h (f ++ ['{']) f1 →
      Emits L env c is (f1 ++ ['}']) f' → Emits L env c (.lit ['{'] ['{'] :: .gap loc h :: .lit ['}'] ['}'] :: is) f f'

/-- The source text of an item. -/
def Item.raw (env : Env) : Item → Res Str
  | .lit src _ => .ok src
  | .gap loc _ => substr env.buf loc env.buf 0
  | .extra _ => .ok []
  | .trail _ src _ => .ok src

/-- The source text of a sequence of items. -/
def rawText (env : Env) : List Item → Res Str
  | [] => .ok []
  | i :: is => do
    let a ← i.raw env
    let b ← rawText env is
    pure (a ++ b)

mutual
/-- With a range: each node's span is the source text of its items, and the arm that forgets a part of the
node when it lies partially in the range (`VarRoundSuffix`) is not used. -/
def Node.Proper (env : Env) (c : Config) : Node → Prop
  | .mk tag span locs kids =>
    (env.posRange ≠ none →
      (tag.checksRange = true → tag.leafText = none →
        substr env.buf span env.buf 0 = rawText env (Node.items c (.mk tag span locs kids))) ∧
      (tag = .varRoundSuffix → notContained env.posRange span = false)) ∧ Node.ProperAll env c kids
def Node.ProperAll (env : Env) (c : Config) : List Node → Prop
  | [] => True
  | n :: ns => n.Proper env c ∧ Node.ProperAll env c ns
end

/-! ### Lemmas -/

variable {L : Prop}

theorem Grows.refl (f : Str) : Grows f f := fun _ _ h => h

theorem Grows.trans {f g h : Str} (a : Grows f g) (b : Grows g h) : Grows f h := fun P hp hf => b P hp (a P hp hf)

theorem Grows.append (f s : Str) : Grows f (f ++ s) := fun _ _ h => h.trans (List.prefix_append f s)

theorem Grows.lift {f g : Str} (p : Str) (h : Grows f g) : Grows (p ++ f) (p ++ g) := by
  intro P hP hf
  obtain ⟨r, hr⟩ := hf
  rcases List.append_eq_append_iff.1 hr with ⟨a, ha, _⟩ | ⟨a, ha, hb⟩
  · rw [ha]
    exact ⟨a ++ g, by simp⟩
  · subst ha
    cases a with
    | nil => simp
    | cons x a =>
      rw [List.prefix_append_right_inj]
      refine h (x :: a) ?_ ⟨r, hb.symm⟩
      unfold NoTab at hP ⊢
      rw [List.getLast?_append, List.getLast?_cons] at hP
      rw [List.getLast?_cons]
      exact hP

theorem commentHint_append {env : Env} {c : Config} {lvl : Int} {loc : Loc} {h f g : Str}
    (hc : commentHint env c lvl loc h f = .ok g) : ∃ s, g = f ++ s := by
  unfold commentHint at hc
  split at hc
  · simp only [Res.bind_eq_ok, Res.pure_eq] at hc
    obtain ⟨s, _, h2⟩ := hc
    cases h2
    exact ⟨s, rfl⟩
  · simp only [Res.bind_eq_ok] at hc
    obtain ⟨s, _, h2⟩ := hc
    split at h2
    · cases h2
    · simp only [Res.bind_eq_ok] at h2
      obtain ⟨full, _, h3⟩ := h2
      split at h3
      · cases h3
      · simp only [Res.pure_eq] at h3
        cases h3
        exact ⟨_, rfl⟩

theorem ifNewLine_grows {env : Env} {c : Config} {lvl : Int} {b : Bool} {loc : Loc} {h f g : Str}
    (hn : ifNewLine c lvl b (commentHint env c lvl loc) h f = .ok g) : Grows f g := by
  unfold ifNewLine at hn
  split at hn
  · simp only [Res.bind_eq_ok, Res.pure_eq] at hn
    obtain ⟨block, _, h2⟩ := hn
    cases h2
    refine Grows.trans ?_ (Grows.append _ _)
    split
    · split
      · exact .append _ _
      · rw [List.append_assoc]; exact .append _ _
    · have key : Grows f (if 1 < byteLen f ∧ (f.getLast? = some ' ' ∨ f.getLast? = some '\t') then f.dropLast else f) := by
        split
        · next hh =>
          intro P hP hf
          obtain ⟨r, rfl⟩ := hf
          rcases List.eq_nil_or_concat r with rfl | ⟨r', x, rfl⟩
          · rw [List.append_nil] at hh
            rcases hh.2 with h | h
            · exact absurd h hP.1
            · exact absurd h hP.2
          · rw [List.concat_eq_append, ← List.append_assoc, List.dropLast_concat]
            exact ⟨r', rfl⟩
        · exact .refl _
      refine key.trans ?_
      generalize (if 1 < byteLen f ∧ (f.getLast? = some ' ' ∨ f.getLast? = some '\t') then f.dropLast else f) = f1
      split
      · exact .refl _
      · exact .append _ _
  · obtain ⟨s, rfl⟩ := commentHint_append hn
    exact .append _ _

theorem GapStep.grows {env : Env} {c : Config} {loc : Loc} {h f f' : Str} (hs : GapStep env c loc h f f') : Grows f f' := by
  obtain ⟨p, f0, g, lvl, b, rfl, rfl, h1, h2⟩ := hs
  exact (ifNewLine_grows h1).lift p

theorem Emits.grows {env : Env} {c : Config} {is : List Item} {f f' : Str} (h : Emits L env c is f f') : Grows f f' := by
  induction h with
  | free _ hg => exact hg
  | nil => exact .refl _
  | lit _ ih => exact (Grows.append _ _).trans ih
  | litRaw _ _ ih => exact (Grows.append _ _).trans ih
  | gap hg _ ih => exact hg.gapStep.grows.trans ih
  | emptyTable hg _ ih => exact (Grows.append _ _).trans (hg.grows.trans ((Grows.append _ _).trans ih))
  | gapRaw _ _ _ ih => exact (Grows.append _ _).trans ih
  | extra hg _ ih => exact hg.gapStep.grows.trans ih
  | extraRaw _ _ ih => exact ih
  | trail b _ _ ih =>
    refine Grows.trans ?_ ih
    cases b
    · exact .refl _
    · exact .append _ _
  | trailRaw _ _ ih => exact (Grows.append _ _).trans ih

/-- A newline stays. -/
theorem Grows.newline {f g : Str} (h : Grows f g) (hn : '\n' ∈ f) : '\n' ∈ g := by
  obtain ⟨a, b, rfl⟩ := List.append_of_mem hn
  obtain ⟨k, hk⟩ := h (a ++ ['\n']) (by unfold NoTab; simp) ⟨b, by simp⟩
  rw [← hk]
  simp

theorem ifNewLine_newline {c : Config} {lvl : Int} {w : Str → Str → Res Str} {h f g : Str}
    (hn : ifNewLine c lvl true w h f = .ok g) : '\n' ∈ g := by
  simp only [ifNewLine, if_true, Res.bind_eq_ok, Res.pure_eq] at hn
  obtain ⟨block, _, h2⟩ := hn
  cases h2
  refine List.mem_append_left _ ?_
  split
  · split
    · next hl => exact List.mem_append_right _ (List.mem_of_getLast? hl)
    · simp
  · generalize (if 1 < byteLen f ∧ (f.getLast? = some ' ' ∨ f.getLast? = some '\t') then f.dropLast else f) = f1
    split
    · next hl => exact List.mem_of_getLast? hl
    · simp

theorem GapStep.lift {env : Env} {c : Config} {loc : Loc} {h f f' : Str} (p : Str) (hn : '\n' ∉ f')
    (hs : GapStep env c loc h f f') : GapStep env c loc h (p ++ f) (p ++ f') := by
  obtain ⟨q, f0, g, lvl, b, rfl, rfl, h1, h2, _⟩ := hs
  refine ⟨p ++ q, f0, g, lvl, b, by simp, by simp, h1, h2, fun e => ?_⟩
  subst e
  exact absurd (List.mem_append_right _ (ifNewLine_newline h1)) hn

theorem PlainStep.lift {env : Env} {c : Config} {loc : Loc} {h f f' : Str} (p : Str) (hn : '\n' ∉ f')
    (hs : PlainStep env c loc h f f') : PlainStep env c loc h (p ++ f) (p ++ f') := by
  obtain ⟨q, f0, g, lvl, b, rfl, rfl, h1, h2, _⟩ := hs
  refine ⟨p ++ q, f0, g, lvl, b, by simp, by simp, h1, h2, fun e => ?_⟩
  subst e
  exact absurd (List.mem_append_right _ (ifNewLine_newline h1)) hn

theorem StepAt.lift {env : Env} {c : Config} {loc : Loc} {h f f' : Str} {is : List Item} (p : Str) (hn : '\n' ∉ f')
    (hs : StepAt env c loc h is f f') : StepAt env c loc h is (p ++ f) (p ++ f') := by
  refine ⟨hs.1.lift p hn, hs.2.imp (·.lift p hn) fun ⟨h1, h2⟩ => ⟨?_, h2⟩⟩
  rw [List.getLast?_append, h1]
  rfl

theorem Emits.lift {env : Env} {c : Config} {is : List Item} {f f' : Str} (p : Str)
    (h : Emits L env c is f f') (hn : '\n' ∉ f') : Emits L env c is (p ++ f) (p ++ f') := by
  induction h with
  | free hl hg => exact .free hl (hg.lift p)
  | nil => exact .nil
  | lit _ ih => exact .lit (by simpa using ih hn)
  | litRaw hr _ ih => exact .litRaw hr (by simpa using ih hn)
  | gap hg h ih => exact .gap (hg.lift p fun e => hn (h.grows.newline e)) (ih hn)
  | emptyTable hg h ih =>
    have h1 := hg.lift p fun e => hn (h.grows.newline (List.mem_append_left _ e))
    rw [← List.append_assoc] at h1
    exact .emptyTable h1 (by simpa using ih hn)
  | gapRaw hr hs _ ih => exact .gapRaw hr hs (by simpa using ih hn)
  | extra hg h ih => exact .extra (hg.lift p fun e => hn (h.grows.newline e)) (ih hn)
  | extraRaw hr _ ih => exact .extraRaw hr (ih hn)
  | trail b hb _ ih =>
    refine .trail b hb ?_
    cases b
    · exact ih hn
    · simpa using ih hn
  | trailRaw hr _ ih => exact .trailRaw hr (by simpa using ih hn)

theorem Emits.append {env : Env} {c : Config} {is js : List Item} {f f1 f' : Str}
    (h : Emits L env c is f f1) (h' : Emits L env c js f1 f') : Emits L env c (is ++ js) f f' := by
  induction h with
  | free hl hg => exact .free hl (hg.trans h'.grows)
  | nil => exact h'
  | lit _ ih => exact .lit (ih h')
  | litRaw hr _ ih => exact .litRaw hr (ih h')
  | gap hg _ ih => exact .gap hg (ih h')
  | emptyTable hg _ ih => exact .emptyTable hg (ih h')
  | gapRaw hr hs _ ih => exact .gapRaw hr hs (ih h')
  | extra hg _ ih => exact .extra hg (ih h')
  | extraRaw hr _ ih => exact .extraRaw hr (ih h')
  | trail b hb _ ih => exact .trail b hb (ih h')
  | trailRaw hr _ ih => exact .trailRaw hr (ih h')

/-- The text ends with a newline and the indentation of the level. -/
def AtLevel (c : Config) (lvl : Int) (f : Str) : Prop := ∃ a, f = a ++ '\n' :: indentText c lvl

/-- What is known of a literal in the written text: it begins a line behind the indentation of a level (and, if it is an
opening brace, possibly the hint of tables), the number of
newlines before it, the number of newlines up to its end (which is not blank) and the width of the last line there, or that it does not begin a line. -/
inductive Mk
  | lvl (l : Int)
  | beg (n : Nat)
  | fin (n w : Nat)
  | mid (b : Bool)

/-- The mark holds for a literal before which is `f`, with `g` the text up to its end. -/
def Mk.Holds (c : Config) (f g : Str) : Mk → Prop
  | .lvl l => AtLevel c l f ∨ ∃ f0, AtLevel c l f0 ∧ f = f0 ++ (c.str .hintTableConstructor).getD [] ∧ g = f ++ ['{']
  | .beg n => f.count '\n' = n
  | .fin n w => g.count '\n' = n ∧ lenAfterNewline g = w ∧ ∃ a x, g = a ++ [x] ∧ x ≠ ' ' ∧ x ≠ '\t'
  | .mid b => b = true → ¬ ∃ a w, f = a ++ '\n' :: w ∧ ∀ x ∈ w, x = ' ' ∨ x = '\t'

/-- Marks at a position of the source, if it is known. -/
def marksAt : Option Nat → List Mk → List (Nat × Mk)
  | some p, ls => ls.map fun l => (p, l)
  | none, _ => []

/-- The first item is not the end of a list. -/
def NoEnd : List Item → Prop
  | .trail .. :: _ => False
  | _ => True

theorem NoEnd.append {is js : List Item} (h : NoEnd is) (hj : NoEnd js) : NoEnd (is ++ js) := by
  cases is with
  | nil => exact hj
  | cons i is => cases i <;> first | exact h | trivial

/-- Nothing is written for an empty gap before the end of a list. -/
def Quiet (loc : Loc) (h : Str) (is : List Item) (f f' : Str) : Prop :=
  ¬ NoEnd is → loc.l = loc.r → h = [] → f' = f

theorem NoEnd.quiet {loc : Loc} {h : Str} {is : List Item} {f f' : Str} (hi : NoEnd is) : Quiet loc h is f f' :=
  fun h => absurd hi h

/-- What `Emits` says, without a constructor for empty tables. The first index is the
position in the source, if the items before tell it. Each mark `(p, m)` of the list is the position of a literal and what
is known of it. Unless `W`, nothing is written for an empty gap behind the last element of a list that is not of fields. -/
inductive LEmits (W : Prop) (env : Env) (c : Config) : Option Nat → List Item → List (Nat × Mk) → Str → Str → Prop
  | nil {p : Option Nat} {f : Str} : LEmits W env c p [] [] f f
  | lit {p : Option Nat} {is : List Item} {ms : List (Nat × Mk)} {src out f f' : Str} (ls : List Mk) :
      (∀ l ∈ ls, l.Holds c f (f ++ out)) → LEmits W env c none is ms (f ++ out) f' →
      LEmits W env c p (.lit src out :: is) (marksAt p ls ++ ms) f f'
  | gap {p : Option Nat} {is : List Item} {ms : List (Nat × Mk)} {loc : Loc} {h f f1 f' : Str} :
      StepAt env c loc h is f f1 → (W ∨ Quiet loc h is f f1) → LEmits W env c (some loc.r) is ms f1 f' →
      LEmits W env c p (.gap loc h :: is) ms f f'
  | extra {p : Option Nat} {is : List Item} {ms : List (Nat × Mk)} {h f f1 f' : Str} : PlainStep env c ⟨0, 0⟩ h f f1 →
      LEmits W env c p is ms f1 f' → LEmits W env c p (.extra h :: is) ms f f'
  | trail {p : Option Nat} {is : List Item} {ms : List (Nat × Mk)} {isF : Bool} {src out f f' : Str} (b : Bool) :
      TrailOk c isF src b → LEmits W env c none is ms (if b then f ++ out else f) f' →
      LEmits W env c p (.trail isF src out :: is) ms f f'
  | litRaw {p : Option Nat} {is : List Item} {ms : List (Nat × Mk)} {src out f f' : Str} (ls : List Mk) :
      env.posRange ≠ none → (∀ l ∈ ls, l.Holds c f (f ++ src)) → LEmits W env c none is ms (f ++ src) f' →
      LEmits W env c p (.lit src out :: is) (marksAt p ls ++ ms) f f'
  | gapRaw {p : Option Nat} {is : List Item} {ms : List (Nat × Mk)} {loc : Loc} {h s f f' : Str} : env.posRange ≠ none →
      substr env.buf loc env.buf 0 = .ok s → LEmits W env c (some loc.r) is ms (f ++ s) f' →
      LEmits W env c p (.gap loc h :: is) ms f f'
  | extraRaw {p : Option Nat} {is : List Item} {ms : List (Nat × Mk)} {h f f' : Str} : env.posRange ≠ none →
      LEmits W env c p is ms f f' → LEmits W env c p (.extra h :: is) ms f f'
  | trailRaw {p : Option Nat} {is : List Item} {ms : List (Nat × Mk)} {isF : Bool} {src out f f' : Str} :
      env.posRange ≠ none → LEmits W env c none is ms (f ++ src) f' → LEmits W env c p (.trail isF src out :: is) ms f f'

theorem marksAt_nil (p : Option Nat) : marksAt p [] = [] := by cases p <;> rfl

theorem LEmits.lit0 {W : Prop} {env : Env} {c : Config} {p : Option Nat} {is : List Item} {ms : List (Nat × Mk)} {src out f f' : Str}
    (h : LEmits W env c none is ms (f ++ out) f') : LEmits W env c p (.lit src out :: is) ms f f' := by
  have := LEmits.lit (p := p) (src := src) [] (fun _ h => (by cases h)) h
  rwa [marksAt_nil] at this

theorem LEmits.litRaw0 {W : Prop} {env : Env} {c : Config} {p : Option Nat} {is : List Item} {ms : List (Nat × Mk)} {src out f f' : Str}
    (hr : env.posRange ≠ none) (h : LEmits W env c none is ms (f ++ src) f') : LEmits W env c p (.lit src out :: is) ms f f' := by
  have := LEmits.litRaw (p := p) (src := src) (out := out) [] hr (fun _ h => (by cases h)) h
  rwa [marksAt_nil] at this

theorem Emits.loose {env : Env} {c : Config} {is : List Item} {f f' : Str}
    (h : Emits False env c is f f') (p : Option Nat) : LEmits True env c p is [] f f' := by
  induction h generalizing p with
  | free hl => exact hl.elim
  | nil => exact .nil
  | lit _ ih => exact .lit0 (ih _)
  | litRaw h _ ih => exact .litRaw0 h (ih _)
  | gap hg _ ih => exact .gap hg.stepAt (.inl trivial) (ih _)
  | gapRaw h hs _ ih => exact .gapRaw h hs (ih _)
  | extra hg _ ih => exact .extra hg (ih _)
  | extraRaw h _ ih => exact .extraRaw h (ih _)
  | trail b hb _ ih => exact .trail b hb (ih _)
  | trailRaw h _ ih => exact .trailRaw h (ih _)
  | emptyTable hg _ ih => exact .lit0 (.gap ⟨hg, .inr ⟨by simp, _, rfl⟩⟩ (.inl trivial) (.lit0 (ih _)))

/-- A sequence may be copied if there is a range. -/
theorem Emits.raw {env : Env} {c : Config} (hr : env.posRange ≠ none) {is : List Item} :
    ∀ {f s : Str}, rawText env is = .ok s → Emits L env c is f (f ++ s) := by
  induction is with
  | nil =>
    intro f s h
    cases h
    simpa using Emits.nil
  | cons i is ih =>
    intro f s h
    simp only [rawText, Res.bind_eq_ok, Res.pure_eq] at h
    obtain ⟨a, ha, b, hb, hs⟩ := h
    cases hs
    have hb' := ih (f := f ++ a) hb
    rw [List.append_assoc] at hb'
    cases i with
    | lit src out => cases ha; exact .litRaw hr hb'
    | gap loc h => exact .gapRaw hr ha hb'
    | extra h => cases ha; refine .extraRaw hr ?_; simpa using hb'
    | trail isF src out => cases ha; exact .trailRaw hr hb'

/-! ### Gaps do not see the difference between variants -/

theorem Variant.indentText {c c' : Config} (h : Variant c c') (lvl : Int) :
    indentText c' lvl = indentText c lvl := by
  unfold Luafmt.indentText; rw [h.str]

theorem Variant.ifNewLine {c c' : Config} (h : Variant c c') (lvl : Int) (b : Bool) (w : Str → Str → Res Str)
    (x f : Str) : ifNewLine c' lvl b w x f = ifNewLine c lvl b w x f := by
  unfold Luafmt.ifNewLine; rw [h.indentText]

theorem Variant.boolEq {c c' : Config} (h : Variant c c') {o : BOpt}
    (ho : o ≠ .writeTrailingFieldSeparator ∧ o ≠ .writeNewlineAtMultilineTable ∧
      o ≠ .writeNewlineAtExplistMultilineTable) : c'.bool o = c.bool o := by
  apply h.bool
  rintro (e | e | e)
  · exact ho.1 e
  · exact ho.2.1 e
  · exact ho.2.2 e

theorem Variant.numEq {c c' : Config} (h : Variant c c') {o : NOpt}
    (ho : o ≠ .newlineFormatTableConstructor ∧ o ≠ .newlineFormatTableField ∧ o ≠ .newlineFormatIf ∧
      o ≠ .newlineFormatFunction) : c'.num o = c.num o := by
  apply h.num
  rintro (e | e | e | e)
  · exact ho.1 e
  · exact ho.2.1 e
  · exact ho.2.2.1 e
  · exact ho.2.2.2 e

theorem Variant.spaceHint {c c' : Config} (h : Variant c c') (e : CEnv) (loc : Loc) (x f : Str) :
    spaceHint e c' loc x f = spaceHint e c loc x f := by
  unfold Luafmt.spaceHint; rw [h.boolEq (by decide)]

theorem Variant.spaceHintFun {c c' : Config} (h : Variant c c') (e : CEnv) (loc : Loc) :
    Luafmt.spaceHint e c' loc = Luafmt.spaceHint e c loc := by
  funext x f; exact h.spaceHint e loc x f

theorem Variant.ctokText {c c' : Config} (h : Variant c c') (t : CTok) : ctokText c' t = ctokText c t := by
  cases t <;> simp only [Luafmt.ctokText, h.str, h.boolEq (o := .removeAllNewlines) (by decide),
    h.boolEq (o := .removeComments) (by decide)]

theorem Variant.ctokWrite {c c' : Config} (h : Variant c c') (e : CEnv) (t : CTokL) (f : Str) :
    ctokWrite e c' t f = ctokWrite e c t f := by
  unfold Luafmt.ctokWrite; rw [h.ctokText]

theorem Variant.ctokNewline {c c' : Config} (h : Variant c c') : ctokNewline c' = ctokNewline c := by
  funext t
  cases t <;> simp only [Luafmt.ctokNewline, h.numEq (o := .newlineFormatOnelineComment) (by decide),
    h.numEq (o := .newlineFormatMultilineComment) (by decide)]

theorem Variant.ctokFirstNewline {c c' : Config} (h : Variant c c') : ctokFirstNewline c' = ctokFirstNewline c := by
  funext t
  cases t <;> simp only [Luafmt.ctokFirstNewline, h.numEq (o := .newlineFormatFirstOnelineComment) (by decide),
    h.numEq (o := .newlineFormatFirstMultilineComment) (by decide)]

theorem Variant.ctokHint {c c' : Config} (h : Variant c c') (t : CTok) : ctokHint c' t = ctokHint c t := by
  cases t <;> simp only [Luafmt.ctokHint, h.str]

theorem Variant.cgap {c c' : Config} (h : Variant c c') (e : CEnv) (b : Bool) (loc : Loc) (x f : Str) :
    cgap e c' b loc x f = cgap e c b loc x f := by
  unfold Luafmt.cgap; rw [h.ifNewLine, h.spaceHintFun]

theorem Variant.crunRest {c c' : Config} (h : Variant c c') (e : CEnv) (b : Bool) (l : List (Loc × CTokL)) (f : Str) :
    crunRest e c' b l f = crunRest e c b l f := by
  induction l generalizing f with
  | nil => rfl
  | cons p l ih =>
    simp only [Luafmt.crunRest, h.cgap, h.ctokNewline, h.ctokHint, h.ctokWrite, ih]

theorem Variant.crunWrite {c c' : Config} (h : Variant c c') (e : CEnv) (r : CRun) (f : Str) :
    crunWrite e c' r f = crunWrite e c r f := by
  unfold Luafmt.crunWrite
  split
  · rfl
  · split
    · rfl
    · simp only [h.ifNewLine, h.spaceHintFun, h.ctokWrite, h.crunRest]

theorem Variant.cvariantRest {c c' : Config} (h : Variant c c') (e : CEnv) (l : List (Loc × CRun)) (f : Str) :
    cvariantRest e c' l f = cvariantRest e c l f := by
  induction l generalizing f with
  | nil => rfl
  | cons p l ih => simp only [Luafmt.cvariantRest, h.cgap, h.ctokNewline, h.crunWrite, ih]

theorem Variant.cvariantWrite {c c' : Config} (h : Variant c c') (e : CEnv) (ch : CChunk) (f : Str) :
    cvariantWrite e c' ch f = cvariantWrite e c ch f := by
  unfold Luafmt.cvariantWrite
  simp only [h.boolEq (o := .removeSingleNewlines) (by decide), h.ifNewLine, h.spaceHintFun,
    h.ctokFirstNewline, h.crunWrite, h.cvariantRest]

theorem Variant.cchunkWrite {c c' : Config} (h : Variant c c') (e : CEnv) (ch : CChunk) (f : Str) :
    cchunkWrite e c' ch f = cchunkWrite e c ch f := by
  unfold Luafmt.cchunkWrite
  simp only [h.spaceHint, h.cvariantWrite]

theorem Variant.commentHint {c c' : Config} (h : Variant c c') (env : Env) (lvl : Int) (loc : Loc) :
    commentHint env c' lvl loc = commentHint env c lvl loc := by
  funext x f
  unfold Luafmt.commentHint commentBlockText
  simp only [h.cchunkWrite, h.str, h.boolEq (o := .replaceZeroSpacesWithHint) (by decide)]

theorem Variant.gapStep {c c' : Config} (h : Variant c c') {env : Env} {loc : Loc} {x f f' : Str}
    {lvl : Int} {b : Bool} (hs : Luafmt.ifNewLine c' lvl b (Luafmt.commentHint env c' lvl loc) x f = .ok f')
    (hb : b = true → NlOpt c ∨ ∃ t, Luafmt.commentHint env c lvl loc x [] = .ok t ∧ hasNewlines t = true) :
    GapStep env c loc x f f' := by
  rw [h.ifNewLine, h.commentHint] at hs
  exact ⟨[], f, f', lvl, b, rfl, rfl, hs, hb, fun _ => rfl⟩

theorem Variant.plainStep {c c' : Config} (h : Variant c c') {env : Env} {loc : Loc} {x f f' : Str}
    {lvl : Int} {b : Bool} (hs : Luafmt.ifNewLine c' lvl b (Luafmt.commentHint env c' lvl loc) x f = .ok f')
    (hb : b = true → NlOpt c) : PlainStep env c loc x f f' := by
  rw [h.ifNewLine, h.commentHint] at hs
  exact ⟨[], f, f', lvl, b, rfl, rfl, hs, hb, fun _ => rfl⟩

theorem Variant.tableHint {c c' : Config} (h : Variant c c') : tableHint c' = tableHint c := by
  unfold Luafmt.tableHint; rw [h.str]

end Luafmt
