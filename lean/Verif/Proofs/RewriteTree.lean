import Verif.Proofs.Rewrite

/-
The tokens that are written for a parsed tree.
-/
namespace Luafmt
open Spec

variable {c : Config} {A : TokL → TokL → Prop}

/-! ### Inversion -/

theorem Outs.nil_inv {ts ts' os : List TokL} (h : Outs c A ts [] ts' os) : ts' = ts ∧ os = [] := by
  cases h; exact ⟨rfl, rfl⟩

theorem Outs.gap_inv {ts ts' os : List TokL} {loc : Loc} {k : Str} {is : List Item}
    (h : Outs c A ts (.gap loc k :: is) ts' os) : Outs c A ts is ts' os := by
  cases h; assumption

theorem Outs.extra_inv {ts ts' os : List TokL} {k : Str} {is : List Item}
    (h : Outs c A ts (.extra k :: is) ts' os) : Outs c A ts is ts' os := by
  cases h; assumption

theorem Outs.lit_inv {ts ts' os : List TokL} {src out : Str} {is : List Item}
    (h : Outs c A ts (.lit src out :: is) ts' os) :
    ∃ t us t' o, ts = t :: us ∧ os = t' :: o ∧
      (out = spell t'.tok ∧ TokNew c t.tok t'.tok ∨ c.lineRange ≠ Option.none ∧ t'.tok = t.tok) ∧ A t t' ∧ Outs c A us is ts' o := by
  generalize he : Item.lit src out :: is = js at h
  cases h with
  | lit h1 h2 h3 => cases he; exact ⟨_, _, _, _, rfl, rfl, .inl ⟨rfl, h1⟩, h2, h3⟩
  | litRaw h0 h1 h2 h3 => cases he; exact ⟨_, _, _, _, rfl, rfl, .inr ⟨h0, h1⟩, h2, h3⟩
  | nil => cases he
  | gap => cases he
  | extra => cases he
  | none => cases he
  | add => cases he
  | drop => cases he
  | keep => cases he
  | keepRaw => cases he

theorem Outs.trail_inv {ts ts' os : List TokL} {isF : Bool} {src out : Str} {is : List Item}
    (h : Outs c A ts (.trail isF src out :: is) ts' os) :
    (src = [] ∧ (out = [] ∨ TrailOk c isF [] false ∨ c.lineRange ≠ Option.none) ∧ Outs c A ts is ts' os) ∨
    (isF = true ∧ src = [] ∧ ∃ sep o, out = spell sep.tok ∧ os = sep :: o ∧ isFieldSep sep.tok = true ∧ TrailOk c true [] true ∧
      c.str .fieldSeparator = some (spell sep.tok) ∧ Outs c A ts is ts' o) ∨
    (isF = true ∧ ∃ t us, src = spell t.tok ∧ ts = t :: us ∧ isFieldSep t.tok = true ∧ TrailOk c true (spell t.tok) false ∧
      Outs c A us is ts' os) ∨
    (isF = true ∧ ∃ t us t' o, src = spell t.tok ∧ ts = t :: us ∧ os = t' :: o ∧ isFieldSep t.tok = true ∧
      (out = spell t'.tok ∧ TokNew c t.tok t'.tok ∧ TrailOk c true (spell t.tok) true ∨ c.lineRange ≠ Option.none ∧ t'.tok = t.tok) ∧ Outs c A us is ts' o) := by
  generalize he : Item.trail isF src out :: is = js at h
  cases h with
  | lit => cases he
  | litRaw => cases he
  | nil => cases he
  | gap => cases he
  | extra => cases he
  | none h1 h2 => cases he; exact .inl ⟨rfl, h1, h2⟩
  | add h1 h2 h3 h4 => cases he; exact .inr (.inl ⟨rfl, rfl, _, _, rfl, rfl, h1, h2, h3, h4⟩)
  | drop h1 h2 h3 => cases he; exact .inr (.inr (.inl ⟨rfl, _, _, rfl, rfl, h1, h2, h3⟩))
  | keep h1 h2 h3 h4 => cases he; exact .inr (.inr (.inr ⟨rfl, _, _, _, _, rfl, rfl, rfl, h1, .inl ⟨rfl, h2, h3⟩, h4⟩))
  | keepRaw h0 h1 h2 h3 => cases he; exact .inr (.inr (.inr ⟨rfl, _, _, _, _, rfl, rfl, rfl, h1, .inr ⟨h0, h2⟩, h3⟩))

theorem Outs.split {is js : List Item} : ∀ {ts ts' os : List TokL}, Outs c A ts (is ++ js) ts' os →
    ∃ us o1 o2, Outs c A ts is us o1 ∧ Outs c A us js ts' o2 ∧ os = o1 ++ o2 := by
  induction is with
  | nil => intro ts ts' os h; exact ⟨ts, [], os, .nil, h, rfl⟩
  | cons i is ih =>
    intro ts ts' os h
    rw [List.cons_append] at h
    cases h with
    | gap h => obtain ⟨us, o1, o2, h1, h2, rfl⟩ := ih h; exact ⟨us, o1, o2, .gap h1, h2, rfl⟩
    | extra h => obtain ⟨us, o1, o2, h1, h2, rfl⟩ := ih h; exact ⟨us, o1, o2, .extra h1, h2, rfl⟩
    | lit e e' h => obtain ⟨us, o1, o2, h1, h2, rfl⟩ := ih h; exact ⟨us, _ :: o1, o2, .lit e e' h1, h2, rfl⟩
    | litRaw e0 e e' h => obtain ⟨us, o1, o2, h1, h2, rfl⟩ := ih h; exact ⟨us, _ :: o1, o2, .litRaw e0 e e' h1, h2, rfl⟩
    | keepRaw e1 e2 e3 h => obtain ⟨us, o1, o2, h1, h2, rfl⟩ := ih h; exact ⟨us, _ :: o1, o2, .keepRaw e1 e2 e3 h1, h2, rfl⟩
    | none e h => obtain ⟨us, o1, o2, h1, h2, rfl⟩ := ih h; exact ⟨us, o1, o2, .none e h1, h2, rfl⟩
    | add e1 e2 e3 h => obtain ⟨us, o1, o2, h1, h2, rfl⟩ := ih h; exact ⟨us, _ :: o1, o2, .add e1 e2 e3 h1, h2, rfl⟩
    | drop e1 e2 h => obtain ⟨us, o1, o2, h1, h2, rfl⟩ := ih h; exact ⟨us, o1, o2, .drop e1 e2 h1, h2, rfl⟩
    | keep e1 e2 e3 h => obtain ⟨us, o1, o2, h1, h2, rfl⟩ := ih h; exact ⟨us, _ :: o1, o2, .keep e1 e2 e3 h1, h2, rfl⟩

theorem Outs.append {is js : List Item} {ts us ts' o1 o2 : List TokL} (h : Outs c A ts is us o1) (h' : Outs c A us js ts' o2) :
    Outs c A ts (is ++ js) ts' (o1 ++ o2) := by
  induction h with
  | nil => exact h'
  | gap _ ih => exact .gap (ih h')
  | extra _ ih => exact .extra (ih h')
  | lit e e' _ ih => exact .lit e e' (ih h')
  | litRaw e0 e e' _ ih => exact .litRaw e0 e e' (ih h')
  | keepRaw e1 e2 e3 _ ih => exact .keepRaw e1 e2 e3 (ih h')
  | none e _ ih => exact .none e (ih h')
  | add e1 e2 e3 _ ih => exact .add e1 e2 e3 (ih h')
  | drop e1 e2 _ ih => exact .drop e1 e2 (ih h')
  | keep e1 e2 e3 _ ih => exact .keep e1 e2 e3 (ih h')

theorem Outs.skel {locs : List Loc} {ks : List (List Item)} {S : List Slot} :
    ∀ {ts ts' os : List TokL}, Outs c A ts (S.flatMap (slotItems locs ks)) ts' os →
    Outs c A ts ((S.filterMap Slot.skel).flatMap (shItems locs ks)) ts' os := by
  induction S with
  | nil => intro ts ts' os h; exact h
  | cons s S ih =>
    intro ts ts' os h
    cases s with
    | lit s =>
      simp only [List.flatMap_cons, slotItems, List.singleton_append] at h
      simp only [List.filterMap_cons, Slot.skel, List.flatMap_cons, shItems, List.singleton_append]
      obtain ⟨t, us, t', o, rfl, rfl, ⟨rfl, h1⟩ | ⟨h0, h1⟩, hA, h2⟩ := h.lit_inv
      · exact .lit h1 hA (ih h2)
      · exact .litRaw h0 h1 hA (ih h2)
    | gap i x =>
      simp only [List.flatMap_cons, slotItems, List.singleton_append] at h
      simp only [List.filterMap_cons, Slot.skel, List.flatMap_cons, shItems, List.singleton_append]
      exact .gap (ih h.gap_inv)
    | kid i =>
      simp only [List.flatMap_cons, slotItems] at h
      simp only [List.filterMap_cons, Slot.skel, List.flatMap_cons, shItems]
      obtain ⟨us, o1, o2, h1, h2, rfl⟩ := h.split
      exact h1.append (ih h2)
    | extra x =>
      simp only [List.flatMap_cons, slotItems, List.singleton_append] at h
      simp only [List.filterMap_cons, Slot.skel]
      exact ih h.extra_inv

theorem TokNew.same {t t' : Token} (h : TokNew c t t') (he : spell t' = spell t) : t' = t := by
  rcases h with h | ⟨s, rfl, _, rfl⟩ | ⟨h1, h2, _⟩
  · exact h
  · simp [spell] at he
  · rcases isFieldSep_cases h1 with rfl | rfl <;> rcases isFieldSep_cases h2 with rfl | rfl <;>
      first | rfl | exact absurd he (by decide)

/-- A token whose text is written, or copied. -/
theorem lit_same {t t' : Token} {out : Str} (h : out = spell t' ∧ TokNew c t t' ∨ c.lineRange ≠ none ∧ t' = t)
    (he : out = spell t) : t' = t := by
  rcases h with ⟨rfl, h⟩ | ⟨_, h⟩
  · exact h.same he
  · exact h

/-! ### Parts -/

/-- The tokens of a tree. -/
def toksIn (x : Cst TokL) : List TokL := x.yield

/-- The tokens of a sequence of trees. -/
def toksIns (xs : List (Cst TokL)) : List TokL := Cst.yields xs

theorem toksIns_cons (x : Cst TokL) (xs : List (Cst TokL)) : toksIns (x :: xs) = toksIn x ++ toksIns xs := by
  simp [toksIns, toksIn, Cst.yields]

mutual
/-- The tokens of two trees are related one by one, except for the separators after the last field of a table. -/
inductive Corr (A : TokL → TokL → Prop) : Cst TokL → Cst TokL → Prop
  | tok {t t' : TokL} : A t t' → Corr A (.tok t) (.tok t')
  | node {tag : Tag} {xs xs' : List (Cst TokL)} : CorrAll A xs xs' → Corr A (.node tag xs) (.node tag xs')
  | str {s s' : Str} {t t' : TokL} : A t t' →
      Corr A (.node (.charStringLiteral s) [.tok t]) (.node (.normalStringLiteral s') [.tok t'])
  | fields {tag : Tag} {xs xs' : List (Cst TokL)} : tag.isFields = true → CorrFields A xs xs' →
      Corr A (.node tag xs) (.node tag xs')
inductive CorrAll (A : TokL → TokL → Prop) : List (Cst TokL) → List (Cst TokL) → Prop
  | nil : CorrAll A [] []
  | cons {x x' : Cst TokL} {xs xs' : List (Cst TokL)} : Corr A x x' → CorrAll A xs xs' → CorrAll A (x :: xs) (x' :: xs')
inductive CorrFields (A : TokL → TokL → Prop) : List (Cst TokL) → List (Cst TokL) → Prop
  | last {x x' : Cst TokL} {ts ts' : Option TokL} : Corr A x x' →
      CorrFields A (x :: (ts.map Cst.tok).toList) (x' :: (ts'.map Cst.tok).toList)
  | cons {x x' : Cst TokL} {t t' : TokL} {xs xs' : List (Cst TokL)} : Corr A x x' → A t t' → CorrFields A xs xs' →
      CorrFields A (x :: .tok t :: xs) (x' :: .tok t' :: xs')
end

/-- What is written for a part is a rewritten part. -/
def Follows (c : Config) (x : Cst TokL) : Prop :=
  ∀ (A : TokL → TokL → Prop) rest ts' os, Outs c A (toksIn x ++ rest) ((placeC x).items c) ts' os →
    ts' = rest ∧ ∃ x', x'.yield = os ∧ Rw c (strip x) (strip x') ∧ Corr A x x'

theorem follows_tok (c : Config) (t : TokL) : Follows c (.tok t) := by
  intro A rest ts' os h
  simp only [toksIn, Cst.yield, List.singleton_append, placeC, Part.items] at h
  obtain ⟨u, us, t', o, e1, rfl, h1, hA, h2⟩ := h.lit_inv
  cases e1
  obtain ⟨rfl, rfl⟩ := h2.nil_inv
  have := lit_same h1 rfl
  refine ⟨rfl, .tok t', rfl, ?_, .tok hA⟩
  simp only [strip, this]
  exact .tok

theorem wantRest_follows {locs : List Loc} {ks : List (List Item)} {ss : List Sym} :
    ∀ {xs : List (Cst TokL)} {g k : Nat} {rest ts' os : List TokL}, FitsRhs ss xs → (∀ x ∈ xs, Follows c x) →
    ks.drop k = kidItems c xs →
    Outs c A (toksIns xs ++ rest) ((wantRest g k ss).flatMap (shItems locs ks)) ts' os →
    ts' = rest ∧ ∃ xs', Cst.yields xs' = os ∧ RwAll c (stripAll xs) (stripAll xs') ∧ CorrAll A xs xs' := by
  induction ss with
  | nil =>
    intro xs g k rest ts' os hf _ _ h
    cases hf
    obtain ⟨e1, rfl⟩ := h.nil_inv
    exact ⟨e1, [], rfl, .nil, .nil⟩
  | cons s ss ih =>
    intro xs g k rest ts' os hf hg hk h
    cases hf with
    | @t tok t ss xs e hf =>
      have hk2 : ks.drop k = kidItems c xs := by
        rw [hk]; simp [kidItems, placeAll, placeC, Part.node?, List.filterMap_cons]
      simp only [wantRest, List.flatMap_cons, shItems, List.singleton_append, toksIns_cons, List.append_assoc] at h
      have h := h.gap_inv
      obtain ⟨us, o1, o2, h1, h2, rfl⟩ := Outs.split (is := [.lit (spell tok) (spell tok)]) h
      subst e
      obtain ⟨rfl, x', rfl, hx, hxA⟩ := hg _ List.mem_cons_self _ _ _ _ h1
      obtain ⟨rfl, xs', rfl, hxs, hxsA⟩ := ih hf (fun x hx => hg x (List.mem_cons_of_mem _ hx)) hk2 h2
      exact ⟨rfl, x' :: xs', rfl, .cons hx hxs, .cons hxA hxsA⟩
    | @n n tag ys ss xs hcl hf =>
      have hk0 : ks.drop k = (placeC (.node tag ys)).items c :: kidItems c xs := by
        rw [hk]; simp [kidItems, placeAll, placeC, Part.node?, Node.itemsAll, Part.items]
      have hk1 : ks[k]?.getD [] = (placeC (.node tag ys)).items c := by
        have := congrArg List.head? hk0
        simp only [List.head?_drop, List.head?_cons] at this
        simp [this]
      have hk2 : ks.drop (k + 1) = kidItems c xs := by
        have := congrArg List.tail hk0
        simpa [List.tail_drop] using this
      simp only [wantRest, List.flatMap_cons, shItems, hk1, toksIns_cons, List.append_assoc, List.cons_append] at h
      have h := h.gap_inv
      rw [List.nil_append] at h
      obtain ⟨us, o1, o2, h1, h2, rfl⟩ := h.split
      obtain ⟨rfl, x', rfl, hx, hxA⟩ := hg _ List.mem_cons_self _ _ _ _ h1
      obtain ⟨rfl, xs', rfl, hxs, hxsA⟩ := ih hf (fun x hx => hg x (List.mem_cons_of_mem _ hx)) hk2 h2
      exact ⟨rfl, x' :: xs', rfl, .cons hx hxs, .cons hxA hxsA⟩

theorem want_follows {locs : List Loc} {ks : List (List Item)} {ss : List Sym} {xs : List (Cst TokL)}
    {rest ts' os : List TokL} (hf : FitsRhs ss xs) (hg : ∀ y ∈ xs, Follows c y) (hk : ks = kidItems c xs)
    (h : Outs c A (toksIns xs ++ rest) ((want ss).flatMap (shItems locs ks)) ts' os) :
    ts' = rest ∧ ∃ xs', Cst.yields xs' = os ∧ RwAll c (stripAll xs) (stripAll xs') ∧ CorrAll A xs xs' := by
  cases ss with
  | nil =>
    cases hf
    obtain ⟨e1, rfl⟩ := h.nil_inv
    exact ⟨e1, [], rfl, .nil, .nil⟩
  | cons s ss =>
    refine wantRest_follows (g := 0) (k := 0) (locs := ⟨0, 0⟩ :: locs) (ks := ks) hf hg hk ?_
    have key : ∀ (ss : List Sym) (g k : Nat), (wantRest (g + 1) k ss).flatMap (shItems (⟨0, 0⟩ :: locs) ks) =
        (wantRest g k ss).flatMap (shItems locs ks) := by
      intro ss
      induction ss with
      | nil => intro g k; rfl
      | cons s ss ih =>
        intro g k
        cases s <;> simp [wantRest, shItems, ih, locAt]
    cases hf with
    | t e hf =>
      simp only [wantRest, List.flatMap_cons, shItems, List.singleton_append, key]
      exact .gap h
    | n e hf =>
      simp only [wantRest, List.flatMap_cons, shItems, List.singleton_append, key]
      exact .gap h

/-! ### Lists -/

theorem plainIs_follows {xs : List (Cst TokL)} : ∀ {ls : List Loc} {rest ts' os : List TokL} {tks : List (Tag × List Item)},
    (∀ x ∈ xs, Follows c x) → ls.length = tks.length → tks.map Prod.snd = (placeAll xs).map (Part.items c) →
    Outs c A (toksIns xs ++ rest) (plainIs ls tks) ts' os →
    ts' = rest ∧ ∃ xs', Cst.yields xs' = os ∧ RwAll c (stripAll xs) (stripAll xs') ∧ CorrAll A xs xs' := by
  induction xs with
  | nil =>
    intro ls rest ts' os tks _ _ ht h
    simp only [placeAll, List.map_nil, List.map_eq_nil_iff] at ht
    subst ht
    have : plainIs ls [] = [] := by cases ls <;> rfl
    rw [this] at h
    obtain ⟨e1, rfl⟩ := h.nil_inv
    exact ⟨e1, [], rfl, .nil, .nil⟩
  | cons x xs ih =>
    intro ls rest ts' os tks hg hl ht h
    cases tks with
    | nil => simp [placeAll] at ht
    | cons tk tks =>
      obtain ⟨t, k⟩ := tk
      cases ls with
      | nil => cases hl
      | cons l ls =>
        simp only [placeAll, List.map_cons, List.cons.injEq] at ht
        obtain ⟨rfl, ht⟩ := ht
        simp only [plainIs, toksIns_cons, List.append_assoc] at h
        obtain ⟨us, o1, o2, h1, h2, rfl⟩ := h.gap_inv.split
        obtain ⟨rfl, x', rfl, hx, hxA⟩ := hg _ List.mem_cons_self _ _ _ _ h1
        obtain ⟨rfl, xs', rfl, hxs, hxsA⟩ := ih (fun x hx => hg x (List.mem_cons_of_mem _ hx)) (by simpa using hl) ht h2
        exact ⟨rfl, x' :: xs', rfl, .cons hx hxs, .cons hxA hxsA⟩

theorem plainIs0_outs {ls : List Loc} {tks : List (Tag × List Item)} {ts ts' os : List TokL}
    (h : Outs c A ts (plainIs0 ls tks) ts' os) : Outs c A ts (plainIs ls tks) ts' os := by
  cases ls with
  | nil => exact h
  | cons l ls =>
    cases tks with
    | nil => exact h
    | cons tk tks => exact .gap h.gap_inv

theorem gapsOf_length : ∀ (ps : List Part), (gapsOf ps).length = ps.length - 1
  | [] => rfl
  | [_] => rfl
  | p :: q :: ps => by
    simp only [gapsOf, List.length_cons, gapsOf_length (q :: ps)]
    rfl

theorem placeAll_length : ∀ (xs : List (Cst TokL)), (placeAll xs).length = xs.length
  | [] => rfl
  | x :: xs => by simp [placeAll, placeAll_length xs]

theorem separator_sep {tag : Tag} (hs : tag.seps.isSome = true) (hf : tag.isFields = false) {s : Token} (h : s = sepTok tag) :
    (separator c tag).getD (spell s) = spell s := by
  cases tag <;> simp [Tag.seps] at hs <;> simp [Tag.isFields] at hf <;> subst h <;> rfl

theorem sepText_of {tag : Tag} {s : Token} (h : s = sepTok tag ∨ (tag.isFields = true ∧ isFieldSep s = true)) :
    sepText s = spell s := by
  rcases h with e | ⟨_, e⟩
  · rcases sepTok_cases tag with e' | e'
    · exact sepText_spell (.inl (e.trans e'))
    · exact sepText_spell (.inr (.inr (e.trans e')))
  · rcases isFieldSep_cases e with e | e
    · exact sepText_spell (.inl e)
    · exact sepText_spell (.inr (.inl e))

/-- The items of a list with separators, one after the other. -/
theorem sepIs_cons {tag : Tag} {t : Tag} {ys : List (Cst TokL)} {s : TokL} {xs : List (Cst TokL)} (hsh : SepShape tag xs)
    (hsep : s.tok = sepTok tag ∨ (tag.isFields = true ∧ isFieldSep s.tok = true)) (h : Str) (pre : Loc) :
    ∃ post pre', sepIs c tag h (sepLocs pre (placeAll (.node t ys :: .tok s :: xs))).1 (kidItems c (.node t ys :: .tok s :: xs))
      (sepLocs pre (placeAll (.node t ys :: .tok s :: xs))).2 =
      .gap pre h :: ((placeC (.node t ys)).items c ++ .gap post [] ::
        .lit (spell s.tok) ((separator c tag).getD (spell s.tok)) ::
          sepIs c tag (elementHint tag) (sepLocs pre' (placeAll xs)).1 (kidItems c xs) (sepLocs pre' (placeAll xs)).2) := by
  have hsp := sepText_of hsep
  obtain ⟨y, ys', rfl⟩ := sepShape_ne hsh
  refine ⟨⟨(placeC (.node t ys)).span.r, s.l⟩, ⟨s.r, (placeC y).span.l⟩, ?_⟩
  have hne := sepIs_ne (c := c) (h := elementHint tag) (pre := ⟨s.r, (placeC y).span.l⟩) hsh
  simp only [placeAll, sepLocs, kidItems, placeC, Part.node?, Node.itemsAll, sepIs,
      Part.items, Part.span, List.filterMap_cons, hsp] at hne ⊢
  rw [hne]
  simp

theorem sepIs_follows {tag : Tag} (ht : tag.seps.isSome = true) (hF : tag.isFields = false) {xs : List (Cst TokL)}
    (hs : SepShape tag xs) : ∀ {pre : Loc} {h : Str} {rest ts' os : List TokL}, (∀ x ∈ xs, Follows c x) →
    Outs c A (toksIns xs ++ rest) (sepIs c tag h (sepLocs pre (placeAll xs)).1 (kidItems c xs)
        (sepLocs pre (placeAll xs)).2) ts' os →
    ts' = rest ∧ ∃ xs', Cst.yields xs' = os ∧ RwAll c (stripAll xs) (stripAll xs') ∧ CorrAll A xs xs' := by
  induction hs with
  | one t ys =>
    intro pre h rest ts' os hg hO
    simp only [placeAll, sepLocs, kidItems, placeC, List.filterMap_cons, List.filterMap_nil, Part.node?, Node.itemsAll, sepIs,
      toksIns_cons, List.append_assoc, List.isEmpty_nil, if_true] at hO
    obtain ⟨us, o1, o2, h1, h2, rfl⟩ := hO.gap_inv.split
    obtain ⟨rfl, x', rfl, hx, hxA⟩ := hg _ List.mem_cons_self _ _ _ _ h1
    rw [hF] at h2
    rcases h2.gap_inv.trail_inv with ⟨_, _, h3⟩ | ⟨h3, _⟩ | ⟨h3, _⟩ | ⟨h3, _⟩
    · obtain ⟨rfl, rfl⟩ := h3.nil_inv
      exact ⟨rfl, [x'], rfl, .cons hx .nil, .cons hxA .nil⟩
    all_goals cases h3
  | trail t ys s hf => rw [hF] at hf; cases hf
  | cons t ys s xs hsep hsh ih =>
    intro pre h rest ts' os hg hO
    have hsep' : s.tok = sepTok tag := by
      rcases hsep with e | ⟨e, _⟩
      · exact e
      · rw [hF] at e; cases e
    obtain ⟨post, pre', e⟩ := sepIs_cons (c := c) (t := t) (ys := ys) hsh hsep h pre
    rw [e] at hO
    rw [toksIns_cons, List.append_assoc] at hO
    obtain ⟨us, o1, o2, h1, h2, rfl⟩ := hO.gap_inv.split
    obtain ⟨rfl, x', rfl, hx, hxA⟩ := hg _ List.mem_cons_self _ _ _ _ h1
    rw [toksIns_cons, List.append_assoc] at h2
    obtain ⟨u, us, t', o, e1, rfl, h3, hA, h4⟩ := h2.gap_inv.lit_inv
    simp only [toksIn, Cst.yield, List.singleton_append, List.cons.injEq] at e1
    obtain ⟨rfl, rfl⟩ := e1
    have := lit_same h3 (separator_sep ht hF hsep')
    obtain ⟨rfl, xs', rfl, hxs, hxsA⟩ := ih (fun x hx => hg x (List.mem_cons_of_mem _ (List.mem_cons_of_mem _ hx))) h4
    refine ⟨rfl, x' :: .tok t' :: xs', rfl, ?_, .cons hxA (.cons (.tok hA) hxsA)⟩
    simp only [stripAll, strip, this]
    exact .cons hx (.cons .tok hxs)

/-! ### Fields -/

theorem separator_fields {tag : Tag} (hF : tag.isFields = true) : separator c tag = c.str .fieldSeparator := by
  cases tag <;> simp [Tag.isFields] at hF <;> rfl

theorem TokNew.sep {t t' : Token} (h : TokNew c t t') (ht : isFieldSep t = true) : isFieldSep t' = true := by
  rcases h with rfl | ⟨s, rfl, _⟩ | ⟨_, h, _⟩
  · exact ht
  · cases ht
  · exact h

theorem sep_spell_ne {t : Token} (h : isFieldSep t = true) : spell t ≠ [] := by
  rcases isFieldSep_cases h with rfl | rfl <;> decide

theorem TrailOk.skip {s : Str} (h : TrailOk c true s false) : LastSeparator c s [] := by
  simp only [TrailOk, if_true] at h
  rcases h with h | ⟨_, h⟩
  · left
    cases hv : c.bool .writeTrailingFieldSeparator with
    | none => rw [hv] at h; simp at h; simp [h]
    | some v => rw [hv] at h; cases v <;> simp at h ⊢
  · exact .inr (.inl ⟨rfl, h⟩)

theorem TrailOk.write {s s' : Str} (h : TrailOk c true s true) (hs : s' = (c.str .fieldSeparator).getD s) : LastSeparator c s s' := by
  simp only [TrailOk, if_true] at h
  rcases h with h | ⟨h, _⟩
  · left
    cases hv : c.bool .writeTrailingFieldSeparator with
    | none => rw [hv] at h; simp at h; simp [h, hs]
    | some v => rw [hv] at h; cases v <;> simp at h ⊢; exact hs
  · cases h

theorem fields_follows {tag : Tag} (hF : tag.isFields = true) {xs : List (Cst TokL)}
    (hs : SepShape tag xs) : ∀ {pre : Loc} {h : Str} {rest ts' os : List TokL}, (∀ x ∈ xs, Follows c x) →
    Outs c A (toksIns xs ++ rest) (sepIs c tag h (sepLocs pre (placeAll xs)).1 (kidItems c xs)
        (sepLocs pre (placeAll xs)).2) ts' os →
    ts' = rest ∧ ∃ xs', Cst.yields xs' = os ∧ RwFields c (stripAll xs) (stripAll xs') ∧ CorrFields A xs xs' := by
  induction hs with
  | one t ys =>
    intro pre h rest ts' os hg hO
    simp only [placeAll, sepLocs, kidItems, placeC, List.filterMap_cons, List.filterMap_nil, Part.node?, Node.itemsAll, sepIs,
      toksIns_cons, List.append_assoc, List.isEmpty_nil, if_true, separator_fields hF] at hO
    obtain ⟨us, o1, o2, h1, h2, rfl⟩ := hO.gap_inv.split
    obtain ⟨rfl, x', rfl, hx, hxA⟩ := hg _ List.mem_cons_self _ _ _ _ h1
    rw [hF] at h2
    rcases h2.gap_inv.trail_inv with ⟨_, h4, h3⟩ | ⟨_, _, sep, o, h3, rfl, h5, h6, h7, h8⟩ | ⟨_, t, us, h3, _, h4, _⟩ |
      ⟨_, t, us, t', o, h3, _, _, h4, _⟩
    · obtain ⟨rfl, rfl⟩ := h3.nil_inv
      refine ⟨rfl, [x'], rfl, .none hx ?_, .last (ts := none) (ts' := none) hxA⟩
      rcases h4 with h4 | h4 | h4
      · left
        rw [h4]
        split <;> rfl
      · exact h4.skip
      · exact .inr (.inr ⟨h4, rfl⟩)
    · obtain ⟨rfl, rfl⟩ := h8.nil_inv
      exact ⟨rfl, [x', .tok sep], rfl, .add hx h5 (h6.write h3.symm), .last (ts := none) (ts' := some sep) hxA⟩
    · exact absurd h3.symm (sep_spell_ne h4)
    · exact absurd h3.symm (sep_spell_ne h4)
  | trail t ys s hf hfs =>
    intro pre h rest ts' os hg hO
    have hsp : sepText s.tok = spell s.tok := sepText_of (tag := tag) (.inr ⟨hf, hfs⟩)
    simp only [placeAll, sepLocs, kidItems, placeC, List.filterMap_cons, List.filterMap_nil, Part.node?, Node.itemsAll, sepIs,
      toksIns_cons, List.append_assoc, List.isEmpty_nil, if_true, separator_fields hF, hsp] at hO
    obtain ⟨us, o1, o2, h1, h2, rfl⟩ := hO.gap_inv.split
    obtain ⟨rfl, x', rfl, hx, hxA⟩ := hg _ List.mem_cons_self _ _ _ _ h1
    rw [hF] at h2
    simp only [toksIn, Cst.yield, List.singleton_append, toksIns, Cst.yields, List.nil_append] at h2
    rcases h2.gap_inv.trail_inv with ⟨h3, _⟩ | ⟨_, h3, _⟩ | ⟨_, t, us, h3, h4, h5, h6, h7⟩ |
      ⟨_, t, us, t', o, h3, h5, rfl, h6, h7, h9⟩
    · exact absurd h3 (sep_spell_ne hfs)
    · exact absurd h3 (sep_spell_ne hfs)
    · cases h4
      obtain ⟨rfl, rfl⟩ := h7.nil_inv
      exact ⟨rfl, [x'], rfl, .drop hx hfs h6.skip, .last (ts := some s) (ts' := none) hxA⟩
    · cases h5
      obtain ⟨rfl, rfl⟩ := h9.nil_inv
      rcases h7 with ⟨h4, h7, h8⟩ | ⟨h0, h7⟩
      · exact ⟨rfl, [x', .tok t'], rfl, .keep hx hfs (h7.sep hfs) (h8.write h4.symm), .last (ts := some s) (ts' := some t') hxA⟩
      · exact ⟨rfl, [x', .tok t'], rfl, .keep hx hfs (h7 ▸ hfs) (.inr (.inr ⟨h0, by rw [h7]⟩)), .last (ts := some s) (ts' := some t') hxA⟩
  | cons t ys s xs hsep hsh ih =>
    intro pre h rest ts' os hg hO
    have hfs : isFieldSep s.tok = true := by
      rcases hsep with e | ⟨_, e⟩
      · rw [e]
        cases tag <;> simp [Tag.isFields] at hF
        rfl
      · exact e
    obtain ⟨post, pre', e⟩ := sepIs_cons (c := c) (t := t) (ys := ys) hsh hsep h pre
    rw [e] at hO
    rw [toksIns_cons, List.append_assoc] at hO
    obtain ⟨us, o1, o2, h1, h2, rfl⟩ := hO.gap_inv.split
    obtain ⟨rfl, x', rfl, hx, hxA⟩ := hg _ List.mem_cons_self _ _ _ _ h1
    rw [toksIns_cons, List.append_assoc] at h2
    obtain ⟨u, us, t', o, e1, rfl, h3, hA, h4⟩ := h2.gap_inv.lit_inv
    simp only [toksIn, Cst.yield, List.singleton_append, List.cons.injEq] at e1
    obtain ⟨rfl, rfl⟩ := e1
    rw [separator_fields hF] at h3
    obtain ⟨rfl, xs', rfl, hxs, hxsA⟩ := ih (fun x hx => hg x (List.mem_cons_of_mem _ (List.mem_cons_of_mem _ hx))) h4
    rcases h3 with ⟨e2, h3⟩ | ⟨h0, h3⟩
    · exact ⟨rfl, x' :: .tok t' :: xs', rfl, .cons hx hfs (h3.sep hfs) (.inl e2.symm) hxs, .cons hxA hA hxsA⟩
    · exact ⟨rfl, x' :: .tok t' :: xs', rfl, .cons hx hfs (h3 ▸ hfs) (.inr ⟨h0, by rw [h3]⟩) hxs, .cons hxA hA hxsA⟩

/-! ### Trees -/

theorem isFields_seps {tag : Tag} (h : tag.seps = none) : tag.isFields = false := by
  cases tag <;> first | rfl | simp [Tag.seps] at h

theorem follows_node {tag : Tag} {xs : List (Cst TokL)} {rest ts' os : List TokL} (hf : tag.isFields = false)
    (h : ts' = rest ∧ ∃ xs', Cst.yields xs' = os ∧ RwAll c (stripAll xs) (stripAll xs') ∧ CorrAll A xs xs') :
    ts' = rest ∧ ∃ x', x'.yield = os ∧ Rw c (strip (.node tag xs)) (strip x') ∧ Corr A (.node tag xs) x' := by
  obtain ⟨e, xs', e1, e2, e3⟩ := h
  exact ⟨e, .node tag xs', by simpa [Cst.yield] using e1, .node hf e2, .node e3⟩

theorem node_follows {n : NT} {tag : Tag} {xs : List (Cst TokL)}
    (h : Derives n (.node tag (stripAll xs))) (hg : ∀ x ∈ xs, Follows c x) : Follows c (.node tag xs) := by
  intro A rest ts' os hO
  replace hO : Outs c A (toksIns xs ++ rest) ((buildNode tag (placeAll xs)).items c) ts' os := by
    simpa [toksIn, toksIns, Cst.yield, placeC, Part.items] using hO
  rcases derives_inv h with ⟨a, tag', ss, cs, e, hp, hm⟩ | ⟨a, tag', t, e, hl⟩
  · cases e
    have hc := prods_checked _ hp
    simp only [prodCheck] at hc
    split at hc
    · -- a leaf
      rename_i s hs
      split at hc
      · rename_i tok
        simp only [Bool.and_eq_true] at hc
        have e1 := eq_of_beq hc.1
        have hf := fits_of_matches (xs := xs) (by rfl) (by rfl) hm
        cases hf with
        | t e3 hf =>
          cases hf
          rename_i u
          have hsep : tag.seps = none := by
            cases tag <;> simp [Tag.leafText] at hs <;> rfl
          have hpl : tag.isPlainList = false := by
            cases tag <;> simp [Tag.leafText] at hs <;> rfl
          have hit : (buildNode tag (placeAll [.tok u])).items c =
              [.lit s (((annotateTag c none tag []).leafText).getD s)] := by
            unfold buildNode
            simp only [hsep, hpl, Node.items, itemsOf, hs, Bool.false_eq_true, if_false]
          rw [hit] at hO
          have hout : ((annotateTag c none tag []).leafText).getD s = spell u.tok := by
            rcases leaf_out (c := c) hs with e | ⟨w, rfl, _⟩
            · rw [e, e1, e3]
            · exact absurd hp prods_noChar
          obtain ⟨v, us, t', o, e4, rfl, h1, hA, h2⟩ := hO.lit_inv
          simp only [toksIns, Cst.yields, Cst.yield, List.append_nil, List.singleton_append,
            List.cons.injEq] at e4
          obtain ⟨rfl, rfl⟩ := e4
          obtain ⟨rfl, rfl⟩ := h2.nil_inv
          have := lit_same h1 hout
          refine follows_node (isFields_seps hsep) ⟨rfl, [.tok t'], rfl, ?_, .cons (.tok hA) .nil⟩
          simp only [stripAll, strip, this]
          exact .cons .tok .nil
      · cases hc
    · rename_i hs
      split at hc
      · -- a list with separators
        rename_i sps hsep
        simp only [Bool.and_eq_true] at hc
        have hfr : frame c tag = none := by
          have := frame_skel c tag
          rw [Option.isNone_iff_eq_none.mp hc.2] at this
          simpa using this
        have hsome : tag.seps.isSome = true := by rw [hsep]; rfl
        have hsh := sepShape_of_form hc.1 hm
        obtain ⟨y, ys, rfl⟩ := sepShape_ne hsh
        have hit : (buildNode tag (placeAll (y :: ys))).items c =
            sepIs c tag [] (sepLocs ⟨(placeC y).span.l, (placeC y).span.l⟩ (placeAll (y :: ys))).1
              (kidItems c (y :: ys))
              (sepLocs ⟨(placeC y).span.l, (placeC y).span.l⟩ (placeAll (y :: ys))).2 := by
          unfold buildNode
          simp only [hsep, Node.items, itemsOf, setSeps_leaf, hs, setSeps_frame, hfr, setSeps_seps hsome,
            setSeps_sepIs]
          rfl
        rw [hit] at hO
        cases hF : tag.isFields with
        | false => exact follows_node hF (sepIs_follows hsome hF hsh hg hO)
        | true =>
          obtain ⟨e, xs', e1, e2, e3⟩ := fields_follows hF hsh hg hO
          exact ⟨e, .node tag xs', by simpa [Cst.yield] using e1, .fields hF e2, .fields hF e3⟩
      · rename_i hsep
        refine follows_node (isFields_seps hsep) ?_
        split at hc
        · -- a list without separators
          rename_i hpl
          simp only [Bool.and_eq_true] at hc
          have hfr : frame c tag = none := by
            have := frame_skel c tag
            rw [Option.isNone_iff_eq_none.mp hc.2] at this
            simpa using this
          have hnodes : ∀ z ∈ xs, ∃ tag zs, z = .node tag zs := by
            intro z hz
            obtain ⟨n, hd⟩ := nodes_of_matches hc.1.2 hm _ (mem_stripAll hz)
            exact strip_derives hd
          have hit : ∃ l, (buildNode tag (placeAll xs)).items c =
              plainIs0 (⟨l, l⟩ :: gapsOf (placeAll xs))
                ((((placeAll xs).filterMap Part.node?).map Node.tag).zip (kidItems c xs)) := by
            refine ⟨((placeAll xs).head?.map (·.span.l)).getD 0, ?_⟩
            unfold buildNode
            simp only [hsep, hpl, Node.items, itemsOf, hs, hfr, if_true]
            rfl
          obtain ⟨l, hit⟩ := hit
          rw [hit] at hO
          have hk := plain_kids (c := c) hnodes
          cases xs with
          | nil =>
            have e0 : plainIs0 (⟨l, l⟩ :: gapsOf (placeAll [])) ((((placeAll []).filterMap Part.node?).map Node.tag).zip
              (kidItems c [])) = [] := rfl
            rw [e0] at hO
            obtain ⟨e1, rfl⟩ := hO.nil_inv
            exact ⟨e1, [], rfl, .nil, .nil⟩
          | cons y ys =>
            refine plainIs_follows hg ?_ hk (plainIs0_outs hO)
            have hlen := congrArg List.length hk
            rw [List.length_map, List.length_map, placeAll_length] at hlen
            rw [List.length_cons, gapsOf_length, placeAll_length, hlen]
            simp
        · -- a fixed sequence
          rename_i hpl
          simp only [Bool.and_eq_true] at hc
          have hsk := eq_of_beq hc.2
          rw [← frame_skel c tag] at hsk
          cases hfr : frame c tag with
          | none => rw [hfr] at hsk; cases hsk
          | some fr =>
            rw [hfr] at hsk
            simp only [Option.map_some, Option.some.injEq] at hsk
            have hf := fits_of_matches (xs := xs) hc.1.2 (prods_flOk _ hp) hm
            have hit : (buildNode tag (placeAll xs)).items c =
                fr.flatMap (slotItems (gapsOf (placeAll xs)) (kidItems c xs)) := by
              unfold buildNode
              simp only [hsep, hpl, Bool.false_eq_true, if_false, Node.items, itemsOf, hs, hfr]
              rfl
            rw [hit] at hO
            have hO := hO.skel
            rw [hsk] at hO
            exact want_follows hf hg rfl hO
  · cases xs with
    | nil => simp [stripAll] at e
    | cons y ys =>
      simp only [stripAll, Cst.node.injEq, List.cons.injEq] at e
      obtain ⟨rfl, e1, e2⟩ := e
      cases stripAll_nil e2
      obtain ⟨u, rfl, e3⟩ := strip_tok e1
      obtain ⟨hs, hsep, hpl, hch⟩ := leafTag_text hl
      have hit : (buildNode tag (placeAll [.tok u])).items c =
          [.lit (spell t) (((annotateTag c none tag []).leafText).getD (spell t))] := by
        unfold buildNode
        simp only [hsep, hpl, Node.items, itemsOf, hs, Bool.false_eq_true, if_false]
      rw [hit] at hO
      obtain ⟨v, us, t', o, e4, rfl, h1, hA, h2⟩ := hO.lit_inv
      simp only [toksIns, Cst.yields, Cst.yield, List.append_nil, List.singleton_append,
        List.cons.injEq] at e4
      obtain ⟨rfl, rfl⟩ := e4
      obtain ⟨rfl, rfl⟩ := h2.nil_inv
      refine ⟨rfl, ?_⟩
      have hsame : t'.tok = u.tok → ∃ x', x'.yield = [t'] ∧ Rw c (strip (.node tag [.tok u])) (strip x') ∧
          Corr A (.node tag [.tok u]) x' := by
        intro this
        refine ⟨.node tag [.tok t'], rfl, ?_, .node (.cons (.tok hA) .nil)⟩
        simp only [stripAll, strip, this]
        exact .node (isFields_seps hsep) (.cons .tok .nil)
      rcases h1 with ⟨e5, h1⟩ | ⟨_, h1⟩
      case inr => exact hsame h1
      rcases leaf_out (c := c) hs with e | ⟨w, e6, e7, e8⟩
      · rw [e, ← e3] at e5
        exact hsame (h1.same e5.symm)
      · have e9 := hch _ e6
        subst e6
        rw [e8] at e5
        rw [e3, e9] at h1
        have ht' : t'.tok = .normalString (charToNormal w) := by
          rcases h1 with e10 | ⟨s, e10, _, e11⟩ | ⟨e10, _⟩
          · rw [e10] at e5; simp [spell] at e5
          · cases e10; exact e11
          · cases e10
        refine ⟨.node (.normalStringLiteral (charToNormal w)) [.tok t'], rfl, ?_, .str hA⟩
        simp only [strip, stripAll, e3, e9, ht']
        exact .str e7

mutual
theorem place_follows (c : Config) : ∀ (x : Cst TokL), ((∃ t, strip x = .tok t) ∨ ∃ n, Derives n (strip x)) → Follows c x
  | .tok t, _ => follows_tok c t
  | .node tag xs, h => by
    rcases h with ⟨t, h⟩ | ⟨n, h⟩
    · simp [strip] at h
    · refine node_follows h (places_follow c xs ?_)
      rcases derives_inv h with ⟨a, tag', ss, cs, e, hp, hm⟩ | ⟨a, tag', t, e, hl⟩
      · simp only [strip, Cst.node.injEq] at e
        rw [e.2]
        exact matches_all hm
      · simp only [strip, Cst.node.injEq] at e
        rw [e.2]
        intro y hy
        exact .inl ⟨t, by simpa using hy⟩
theorem places_follow (c : Config) : ∀ (xs : List (Cst TokL)),
    (∀ y ∈ stripAll xs, (∃ t, y = .tok t) ∨ ∃ n, Derives n y) → ∀ x ∈ xs, Follows c x
  | [], _, x, h => nomatch h
  | y :: ys, hy, x, h => by
    simp only [stripAll] at hy
    rcases List.mem_cons.mp h with e | h
    · rw [e]
      exact place_follows c y (hy _ List.mem_cons_self)
    · exact places_follow c ys (fun z hz => hy z (List.mem_cons_of_mem _ hz)) x h
end

end Luafmt
