import Verif.Proofs.Layout
import Verif.Proofs.LiveTree
import Verif.Proofs.GapWrite

/-
Where blanks and newlines between tokens are removed, the text of a gap depends on its comments only.
-/
namespace Luafmt
open Spec

variable {c : Config} {B : Prop}

/-- The options under which gaps are written from scratch; `B` tells whether comments may occur. -/
structure Compact (c : Config) (B : Prop) : Prop where
  spaces : c.bool .removeSpacesBetweenTokens = some true
  lines : c.bool .removeAllNewlines = some true
  plain : B → FirstAlike c

/-- The tokens that occur in a gap. -/
def Occur (B : Prop) (ts : List CTokL) : Prop := ∀ t ∈ ts, t.tok.isComment = true → B

/-- There is no hint before a comment, or at most one comment. -/
def Lone (c : Config) (ts : List CTokL) : Prop :=
  (c.str .hintBeforeComment).getD [] = [] ∨ (ts.filter (·.tok.isComment)).length ≤ 1

theorem Lone.left {ts us : List CTokL} (h : Lone c (ts ++ us)) : Lone c ts :=
  h.imp id (fun h => by rw [List.filter_append, List.length_append] at h; omega)

theorem Lone.right {ts us : List CTokL} (h : Lone c (ts ++ us)) : Lone c us :=
  h.imp id (fun h => by rw [List.filter_append, List.length_append] at h; omega)

theorem Lone.rest {t : CTokL} {ts : List CTokL} {k : Bool} (h : Lone c (t :: ts)) (hk : ∀ u ∈ t :: ts, u.tok.isComment = k) :
    ∀ u ∈ ts, ctokHint c u.tok = [] := by
  intro u hu
  rcases h with h | h
  · cases u.tok with
    | newLine => rfl
    | oneLine s => exact h
    | multiLine n s => exact h
  · cases k with
    | false =>
      have := hk u (by simp [hu])
      cases ht : u.tok with
      | newLine => rfl
      | oneLine s => rw [ht] at this; cases this
      | multiLine n s => rw [ht] at this; cases this
    | true =>
      rw [List.filter_eq_self.mpr hk] at h
      cases ts with
      | nil => cases hu
      | cons v ts => simp at h

theorem ite_eq_of {α : Type} {p : Prop} [Decidable p] {a b x : α} (h1 : p → a = x) (h2 : ¬p → b = x) :
    (if p then a else b) = x := by
  split
  · exact h1 ‹_›
  · exact h2 ‹_›

/-- A writer that writes its hint. -/
def hintOnly (h f : Str) : Res Str := .ok (f ++ h)

/-- The comment token of a comment. -/
def Spec.Elem.ctok : Elem → CTok
  | .tok _ => .newLine
  | .line s => .oneLine s
  | .long n s => .multiLine n s

/-- The comments of a gap, written one after the other. -/
def efold (c : Config) (lvl : Int) : List Elem → Str → Res Str
  | [], f => .ok f
  | e :: es, f => do
    let f ← ifNewLine c lvl (ctokNewline c e.ctok) hintOnly [] f
    efold c lvl es (f ++ ctokText c e.ctok)

/-- The same for the tokens of a gap. -/
def cfold (c : Config) (lvl : Int) : List CTokL → Str → Res Str
  | [], f => .ok f
  | t :: ts, f => do
    let f ← ifNewLine c lvl (ctokNewline c t.tok) hintOnly [] f
    cfold c lvl ts (f ++ ctokText c t.tok)

theorem cfold_append (lvl : Int) (ts us : List CTokL) (f : Str) :
    cfold c lvl (ts ++ us) f = cfold c lvl ts f >>= cfold c lvl us := by
  induction ts generalizing f with
  | nil => rfl
  | cons t ts ih =>
    simp only [List.cons_append, cfold]
    cases ifNewLine c lvl (ctokNewline c t.tok) hintOnly [] f with
    | ok x => simp only [Res.bind_ok, ih]
    | err => rfl
    | panic => rfl

theorem Compact.newLine (hc : Compact c B) (lvl : Int) (f : Str) :
    ifNewLine c lvl (ctokNewline c .newLine) hintOnly [] f = .ok f ∧ ctokText c .newLine = [] := by
  constructor
  · simp [ifNewLine, ctokNewline, hintOnly]
  · simp [ctokText, hc.lines]

theorem cfold_efold (hc : Compact c B) (lvl : Int) (ts : List CTokL) (f : Str) :
    cfold c lvl ts f = efold c lvl (celems ts) f := by
  induction ts generalizing f with
  | nil => rfl
  | cons t ts ih =>
    obtain ⟨l, t, r⟩ := t
    cases t with
    | newLine =>
      have hn := hc.newLine lvl f
      simp only [cfold, hn.1, hn.2, Res.bind_ok, List.append_nil, celems, List.flatMap_cons, celem, List.nil_append]
      exact ih f
    | oneLine s =>
      simp only [cfold, celems, List.flatMap_cons, celem, List.singleton_append, efold, Elem.ctok]
      congr 1
      funext f
      exact ih _
    | multiLine n s =>
      simp only [cfold, celems, List.flatMap_cons, celem, List.singleton_append, efold, Elem.ctok]
      congr 1
      funext f
      exact ih _

/-- No range. -/
structure CBare (e : CEnv) : Prop where
  pos : e.env.posRange = none
  range : e.range = none

section
variable (hc : Compact c B) {e : CEnv} (he : CBare e)
include hc he

theorem spaceHint_bare (l : Loc) : spaceHint e c l = hintOnly := by
  funext h f
  simp [spaceHint, he.range, outOfRange, hc.spaces, hintOnly]

theorem cgap_bare (b : Bool) (l : Loc) (h f : Str) : cgap e c b l h f = ifNewLine c e.lvl b hintOnly h f := by
  unfold cgap
  rw [he.pos, spaceHint_bare hc he]
  rfl

theorem ctokWrite_bare (t : CTokL) (f : Str) : ctokWrite e c t f = .ok (f ++ ctokText c t.tok) := by
  simp [ctokWrite, he.range, outOfRange]

theorem crunRest_bare {k : Bool} : ∀ (ts : List CTokL) (p : Option Nat) (f : Str), (∀ t ∈ ts, t.tok.isComment = k) →
    (∀ t ∈ ts, ctokHint c t.tok = []) → crunRest e c k (crunItems p ts) f = cfold c e.lvl ts f
  | [], p, f, _, _ => by cases p <;> rfl
  | t :: ts, p, f, h, ho => by
    have hh := ho t (by simp)
    have hn : (k && ctokNewline c t.tok) = ctokNewline c t.tok := by
      have := h t (by simp)
      rw [← this]
      cases t.tok <;> rfl
    have main : ∀ l, crunRest e c k ((l, t) :: crunItems (some t.r) ts) f = cfold c e.lvl (t :: ts) f := by
      intro l
      simp only [crunRest, cfold, cgap_bare hc he, hh, hn, ctokWrite_bare hc he, Res.bind_ok]
      congr 1
      funext f
      exact crunRest_bare ts _ _ (fun u hu => h u (by simp [hu])) (fun u hu => ho u (by simp [hu]))
    cases p <;> exact main _

theorem crunWrite_bare {k : Bool} {sp : Loc} (t : CTokL) (ts : List CTokL) (f : Str) (h : ∀ u ∈ t :: ts, u.tok.isComment = k)
    (hl : Lone c (t :: ts)) :
    crunWrite e c ⟨sp, k, crunItems none (t :: ts)⟩ f = cfold c e.lvl ts (f ++ ctokText c t.tok) := by
  unfold crunWrite
  simp only [he.range, outOfRange, Bool.false_eq_true, if_false, crunItems, ifNewLine, spaceHint_bare hc he, hintOnly,
    List.append_nil, Res.bind_ok, ctokWrite_bare hc he]
  exact crunRest_bare hc he ts _ _ (fun u hu => h u (by simp [hu])) (hl.rest h)

/-- The kinds of tokens in the groups. -/
def Kinds (gs : List (Bool × List CTokL)) : Prop := ∀ g ∈ gs, ∀ t ∈ g.2, t.tok.isComment = g.1

omit hc he in
theorem cgroup_kinds (ts : List CTokL) : Kinds (cgroup ts) := by
  induction ts with
  | nil => intro g h; cases h
  | cons t ts ih =>
    unfold cgroup
    generalize cgroup ts = gs at ih
    cases gs with
    | nil =>
      intro g hg u hu
      simp only [List.mem_singleton] at hg
      subst hg
      simp only [List.mem_singleton] at hu
      rw [hu]
    | cons g gs =>
      obtain ⟨b, g⟩ := g
      simp only
      split
      · next hb =>
        intro g' hg u hu
        rcases List.mem_cons.mp hg with rfl | hg
        · rcases List.mem_cons.mp hu with rfl | hu
          · exact hb
          · exact ih (b, g) (by simp) u hu
        · exact ih g' (by simp [hg]) u hu
      · intro g' hg u hu
        rcases List.mem_cons.mp hg with rfl | hg
        · simp only [List.mem_singleton] at hu
          rw [hu]
        · exact ih g' hg u hu

omit he in
theorem crunNewline_bare {k : Bool} {sp : Loc} (t : CTokL) (ts : List CTokL) (h : t.tok.isComment = k)
    (ho : t.tok.isComment = true → B) :
    crunNewline (ctokNewline c) ⟨sp, k, crunItems none (t :: ts)⟩ = ctokNewline c t.tok ∧
    crunNewline (ctokFirstNewline c) ⟨sp, k, crunItems none (t :: ts)⟩ = ctokNewline c t.tok := by
  have h1 : ctokFirstNewline c t.tok = ctokNewline c t.tok := by
    cases ht : t.tok with
    | newLine => rfl
    | oneLine s => rw [ht] at ho; exact decide_eq_decide.mpr (hc.plain (ho rfl)).line
    | multiLine n s => rw [ht] at ho; exact decide_eq_decide.mpr (hc.plain (ho rfl)).long
  cases k with
  | true => exact ⟨rfl, h1⟩
  | false =>
    have : ctokNewline c t.tok = false := by
      cases ht : t.tok with
      | newLine => rfl
      | oneLine s => rw [ht] at h; cases h
      | multiLine n s => rw [ht] at h; cases h
    rw [this]
    exact ⟨rfl, rfl⟩

theorem cvariantRest_bare : ∀ (gs : List (Bool × List CTokL)) (p : Option Nat) (f : Str), Groups gs → Kinds gs →
    Occur B (gs.flatMap (·.2)) → Lone c (gs.flatMap (·.2)) →
    cvariantRest e c (cvariant p gs) f = cfold c e.lvl (gs.flatMap (·.2)) f
  | [], p, f, _, _, _, _ => rfl
  | (k, g) :: gs, p, f, hg, hk, ho, hl => by
    obtain ⟨t, ts, rfl⟩ := List.exists_cons_of_ne_nil (hg (k, g) (by simp)).1
    have hkt := hk (k, t :: ts) (by simp)
    simp only [cvariant, cvariantRest, (crunNewline_bare hc t ts (hkt t (by simp)) (ho t (by simp))).1, cgap_bare hc he,
      List.flatMap_cons, List.cons_append, cfold]
    congr 1
    funext f
    simp only [List.flatMap_cons] at hl
    rw [crunWrite_bare hc he t ts f hkt hl.left, cfold_append]
    congr 1
    funext f
    exact cvariantRest_bare gs _ f (fun x hx => hg x (by simp [hx])) (fun x hx => hk x (by simp [hx]))
      (fun u hu => ho u (by simp only [List.flatMap_cons]; exact List.mem_append_right _ hu)) hl.right

theorem cchunkWrite_bare {ch : CChunk} {ts : List CTokL} (h1 : clex e.cbuf = some ts) (h2 : parseComment e.cbuf = some ch)
    (ho : Occur B ts) (hl : Lone c ts) (f : Str) :
    cchunkWrite e c ch f = cfold c e.lvl ts f := by
  unfold parseComment at h2
  rw [h1] at h2
  have hb : ∀ x : Res Str, (x >>= fun f => Res.ok f) = x := fun x => by cases x <;> rfl
  cases ts with
  | nil =>
    simp only [Option.some.injEq] at h2
    subst h2
    simp [cchunkWrite, cvariantWrite, he.range, outOfRange, spaceHint_bare hc he, hintOnly, cfold]
  | cons t ts =>
    simp only [Option.some.injEq] at h2
    subst h2
    simp only [cchunkWrite, he.range, outOfRange, Bool.false_eq_true, if_false, spaceHint_bare hc he, hintOnly,
      List.append_nil, Res.bind_ok, hb]
    obtain ⟨hg, hf⟩ := cgroup_ok (t :: ts)
    have main : ∀ gs : List (Bool × List CTokL), ∀ l0 sp l1, Groups gs → Kinds gs → Occur B (gs.flatMap (·.2)) →
        Lone c (gs.flatMap (·.2)) → cvariantWrite e c ⟨l0, sp, cvariant none gs, l1⟩ f = cfold c e.lvl (gs.flatMap (·.2)) f := by
      intro gs l0 sp l1 hg hk ho hl
      unfold cvariantWrite
      simp only [he.range, outOfRange, Bool.false_eq_true, if_false]
      match gs, hg, hk, ho, hl with
      | [], _, _, _, _ => simp [cvariant, cfold]
      | (k, g) :: gs, hg, hk, ho, hl =>
        obtain ⟨u, us, rfl⟩ := List.exists_cons_of_ne_nil (hg (k, g) (by simp)).1
        have hkt := hk (k, u :: us) (by simp)
        refine ite_eq_of ?_ ?_
        · intro hs
          obtain ⟨_, hs⟩ := hs
          cases gs with
          | cons g' gs => obtain ⟨k', g'⟩ := g'; simp [cvariant] at hs
          | nil =>
            simp only [cvariant, Bool.and_eq_true, Bool.not_eq_true', beq_iff_eq] at hs
            obtain ⟨rfl, hs⟩ := hs
            cases us with
            | cons v g => simp [crunItems] at hs
            | nil =>
              have := hkt u (by simp)
              obtain ⟨l, u, r⟩ := u
              cases u with
              | newLine =>
                have hn := hc.newLine e.lvl f
                simp [cfold, hn.1, hn.2]
              | oneLine s => cases this
              | multiLine n s => cases this
        · intro _
          simp only [cvariant, (crunNewline_bare hc u us (hkt u (by simp)) (ho u (by simp))).2, List.flatMap_cons, List.cons_append, cfold,
            spaceHint_bare hc he]
          congr 1
          funext f
          simp only [List.flatMap_cons] at hl
          rw [crunWrite_bare hc he u us f hkt hl.left, cfold_append]
          congr 1
          funext f
          exact cvariantRest_bare hc he gs _ f (fun x hx => hg x (by simp [hx])) (fun x hx => hk x (by simp [hx]))
            (fun v hv => ho v (by simp only [List.flatMap_cons]; exact List.mem_append_right _ hv)) hl.right
    have h := main _ ⟨0, t.l⟩ ⟨t.l, crunEnd (t :: ts)⟩ ⟨crunEnd (t :: ts), e.cbuf.length⟩ hg (cgroup_kinds _) (by rw [hf]; exact ho) (by rw [hf]; exact hl)
    rw [hf] at h
    exact h
end

/-- What is written for a gap with these comments. -/
def gapFn (c : Config) (lvl : Int) (es : List Elem) (h f : Str) : Res Str := do
  let full ← efold c lvl es [f.getLast?.getD ' ']
  match dropBytes 1 full with
  | none => .panic
  | some block => pure (f ++ commentBlockText c h block)

/-- Gaps of which the comments fit the options. -/
def GapFit (c : Config) (es : List Elem) : Prop :=
  es = [] ∨ (FirstAlike c ∧ ((c.str .hintBeforeComment).getD [] = [] ∨ es.length ≤ 1))

theorem celems_length (ts : List CTokL) : (celems ts).length = (ts.filter (·.tok.isComment)).length := by
  induction ts with
  | nil => rfl
  | cons t ts ih =>
    obtain ⟨l, t, r⟩ := t
    have e : celems (⟨l, t, r⟩ :: ts) = celem t ++ celems ts := rfl
    rw [e, List.length_append, ih]
    cases t with
    | newLine => simp [celem, CTok.isComment]
    | oneLine s => simp [celem, CTok.isComment]; omega
    | multiLine n s => simp [celem, CTok.isComment]; omega

theorem Spec.Relaid.compact (hc : Relaid c) (hB : B → FirstAlike c) : Compact c B := ⟨hc.spaces, hc.lines, hB⟩

theorem commentHint_bare (hc : Relaid c) {env : Env} (he : env.posRange = none) {a g b : Str} (h1 : env.buf = a ++ (g ++ b))
    (hg : FinalGap g) (hF : GapFit c (gapElems g)) (lvl : Int) (h f : Str) :
    commentHint env c lvl ⟨a.length, a.length + g.length⟩ h f = gapFn c lvl (gapElems g) h f := by
  obtain ⟨ts, k1, _⟩ := clex_gap hg
  have k2 : ∃ ch, parseComment g = some ch := by
    unfold parseComment
    rw [k1]
    cases ts <;> exact ⟨_, rfl⟩
  obtain ⟨ch, k2⟩ := k2
  have k3 : gapElems g = celems ts := by simp only [gapElems, k1, Option.getD_some]
  rw [k3] at hF
  have hB : celems ts ≠ [] → FirstAlike c := fun h => (hF.resolve_left h).1
  have hl : Lone c ts := by
    rcases hF with hF | hF
    · exact .inr (by rw [← celems_length, hF]; simp)
    · exact hF.2.imp id (fun h => by rw [← celems_length]; exact h)
  unfold commentHint gapFn
  rw [substr_src h1, he]
  simp only [outOfRange, Bool.false_eq_true, if_false, Res.bind_ok, k2]
  have ho : Occur (celems ts ≠ []) ts := by
    intro t ht hc hn
    have : celem t.tok = [] := (List.flatMap_eq_nil_iff.mp hn) t ht
    cases hk : t.tok with
    | newLine => rw [hk] at hc; cases hc
    | _ => rw [hk] at this; cases this
  rw [cchunkWrite_bare (hc.compact hB) (e := ⟨env, g, a.length, commentRange none a.length, lvl⟩) ⟨he, rfl⟩ k1 k2 ho hl,
    cfold_efold (hc.compact hB), k3]
  rfl

/-- Comments that are written in the same way. -/
def ElemSim (c : Config) (e e' : Elem) : Prop :=
  ctokText c e.ctok = ctokText c e'.ctok ∧ ctokNewline c e.ctok = ctokNewline c e'.ctok

theorem efold_sim {es es' : List Elem} (h : Pairs (ElemSim c) es es') (lvl : Int) (f : Str) :
    efold c lvl es f = efold c lvl es' f := by
  induction h generalizing f with
  | nil => rfl
  | cons h _ ih =>
    simp only [efold, h.1, h.2]
    congr 1
    funext f
    exact ih _

theorem efold_blind (hc : Relaid c) (hn : NoTrace c) (lvl : Int) (es : List Elem) (f : Str) : efold c lvl es f = .ok f := by
  induction es generalizing f with
  | nil => rfl
  | cons e es ih =>
    have h1 : ctokText c e.ctok = [] := by
      cases e <;> simp [Elem.ctok, ctokText, hc.lines, hn.comments]
    have h2 : ctokNewline c e.ctok = false := by
      cases e <;> simp [Elem.ctok, ctokNewline, hn.noLine, hn.noLong]
    simp [efold, h1, h2, ifNewLine, hintOnly, ih]

/-- All gaps are written in the same way. -/
theorem sameGap_blind (hc : Relaid c) (hn : NoTrace c) {env env' : Env} (he : env.posRange = none) (he' : env'.posRange = none) {l l' : Loc}
    (h : GapAt env l) (h' : GapAt env' l') : SameGap c env env' l l' := by
  intro lvl x f
  obtain ⟨a, g, b, h1, rfl, h2⟩ := h
  obtain ⟨a', g', b', h1', rfl, h2'⟩ := h'
  rw [commentHint_bare hc he h1 h2 (.inr ⟨hn.toFirstAlike, .inl hn.hint⟩),
    commentHint_bare hc he' h1' h2' (.inr ⟨hn.toFirstAlike, .inl hn.hint⟩)]
  simp [gapFn, efold_blind hc hn]

/-- The gap has these comments. -/
def GapHas (env : Env) (es : List Elem) (l : Loc) : Prop :=
  ∃ a g b, env.buf = a ++ (g ++ b) ∧ l = ⟨a.length, a.length + g.length⟩ ∧ FinalGap g ∧ gapElems g = es

theorem pairs_length_eq {α β : Type} {R : α → β → Prop} {as : List α} {bs : List β} (h : Pairs R as bs) : bs.length = as.length := by
  induction h with
  | nil => rfl
  | cons _ _ ih => simp [ih]

theorem GapFit.sim {es es' : List Elem} (h : GapFit c es) (hs : Pairs (ElemSim c) es es') : GapFit c es' := by
  have hl := pairs_length_eq hs
  rcases h with rfl | ⟨h1, h2⟩
  · exact .inl (List.length_eq_zero_iff.mp hl)
  · exact .inr ⟨h1, by rw [hl]; exact h2⟩

/-- Gaps with comments that are written in the same way are written in the same way. -/
theorem sameGap_sim (hc : Relaid c) {es es' : List Elem} (hn : GapFit c es) (hs : Pairs (ElemSim c) es es') {env env' : Env}
    (he : env.posRange = none) (he' : env'.posRange = none) {l l' : Loc} (h : GapHas env es l) (h' : GapHas env' es' l') :
    SameGap c env env' l l' := by
  intro lvl x f
  obtain ⟨a, g, b, h1, rfl, h2, h3⟩ := h
  obtain ⟨a', g', b', h1', rfl, h2', h3'⟩ := h'
  rw [commentHint_bare hc he h1 h2 (by rw [h3]; exact hn), commentHint_bare hc he' h1' h2' (by rw [h3']; exact hn.sim hs), h3, h3',
    gapFn, gapFn, efold_sim hs]

theorem sim_refl (es : List Elem) : Pairs (ElemSim c) es es := by
  induction es with
  | nil => exact .nil
  | cons e es ih => exact .cons ⟨rfl, rfl⟩ ih

/-- Gaps with the same comments are written in the same way. -/
theorem sameGap_elems (hc : Relaid c) {es : List Elem} (hn : GapFit c es) {env env' : Env} (he : env.posRange = none)
    (he' : env'.posRange = none) {l l' : Loc} (h : GapHas env es l) (h' : GapHas env' es l') : SameGap c env env' l l' :=
  sameGap_sim hc hn (sim_refl es) he he' h h'

end Luafmt
