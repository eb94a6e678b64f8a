import Verif.Proofs.SepsAll

/-
The hints of the printer between two tokens are the blanks of `Spec.spacing`.
-/
namespace Luafmt
open Spec

variable {c : Config}

/-! ### Tokens that are treated alike -/

/-- The token itself, or the string that is written for a string in single quotes. -/
def Akin (t t' : Token) : Prop := t' = t ∨ ∃ s s', t = .charString s ∧ t' = .normalString s'

theorem Akin.refl (t : Token) : Akin t t := .inl rfl

theorem kind_eq_of {t u : Token} (h : (match u with
    | .variable _ | .numeral _ | .normalString _ | .charString _ | .multiLineString _ _ | .sheBang _ => false
    | _ => true) = true) : t.kind = u ↔ t = u := by
  cases t <;> first
    | exact Iff.rfl
    | (constructor <;> intro e <;> subst e <;> cases h)

theorem spaceB_kind (w : Str) (p t : Token) (H : Str) : spaceB w p.kind t.kind H = spaceB w p t H := by
  have e0 : ∀ t : Token, isSheBang t.kind = isSheBang t := fun t => by cases t <;> rfl
  have e1 : ∀ t : Token, isInfix t.kind = isInfix t := fun t => by cases t <;> rfl
  have e2 : ∀ t : Token, isOpening t.kind = isOpening t := fun t => by cases t <;> rfl
  have e3 : ∀ t : Token, isWord t.kind = isWord t := fun t => by cases t <;> rfl
  have e4 : ∀ t : Token, isAtom t.kind = isAtom t := fun t => by cases t <;> rfl
  unfold spaceB spacing
  simp only [e0, e1, e2, e3, e4, kind_eq_of (u := .comma) rfl,
    kind_eq_of (u := .openRound) rfl,
    kind_eq_of (u := .closeRound) rfl,
    kind_eq_of (u := .openSquare) rfl,
    kind_eq_of (u := .closeSquare) rfl,
    kind_eq_of (u := .openCurly) rfl,
    kind_eq_of (u := .closeCurly) rfl,
    kind_eq_of (u := .period) rfl,
    kind_eq_of (u := .colon) rfl,
    kind_eq_of (u := .opLength) rfl,
    kind_eq_of (u := .equalsSign) rfl,
    kind_eq_of (u := .minus) rfl,
    kind_eq_of (u := .tilde) rfl,
    kind_eq_of (u := .kwFunction) rfl,
    kind_eq_of (u := .semicolon) rfl,
    kind_eq_of (u := .kwReturn) rfl]

theorem spaceB_string (w s s' : Str) (t : Token) (H : Str) :
    spaceB w (.normalString s') t H = spaceB w (.charString s) t H ∧
      spaceB w t (.normalString s') H = spaceB w t (.charString s) H := by
  constructor <;> cases t <;> rfl

theorem SpaceIn.akin {pw : Option Token} {t t' : Token} {H : Str} (h : SpaceIn c pw t H) (ha : Akin t t') : SpaceIn c pw t' H := by
  rcases ha with rfl | ⟨s, s', rfl, rfl⟩
  · exact h
  · cases pw with
    | none => exact h
    | some p => exact (spaceB_string _ s s' p H).2.trans h

theorem short_of {H : Str} (h : H = [] ∨ H = [' ']) : Short c H := fun _ => h

theorem spacing_short {p t : Token} {w : Str} (h : spacing p t = some w) : w = [] ∨ w = [' '] := by
  unfold spacing at h
  repeat' split at h
  all_goals first
    | (cases h; done)
    | (cases h; exact .inl rfl)
    | (cases h; exact .inr rfl)

theorem SpaceIn.short {pw : Option Token} {t : Token} {H : Str} (h : SpaceIn c pw t H) : Short c H := by
  intro hn
  cases pw with
  | none => exact .inl h
  | some p =>
    simp only [SpaceIn, spaceB] at h
    split at h
    · rw [eq_of_beq h]; exact hn
    · split at h
      · exact .inl (eq_of_beq h)
      · split at h
        · next e => rw [eq_of_beq h]; exact spacing_short e
        · simpa using h

theorem SpaceIn.ok {pw : Option Token} {t : Token} {H : Str} (h : SpaceIn c pw t H) : SpaceOk c pw t H := ⟨H, h, .inl rfl⟩

theorem spell_fieldSep_inj {t t' : Token} (h : isFieldSep t = true) (h' : isFieldSep t' = true) (he : spell t' = spell t) : t' = t := by
  rcases isFieldSep_cases h with rfl | rfl <;> rcases isFieldSep_cases h' with rfl | rfl <;> first | rfl | (simp [spell] at he)

theorem TokNew.akin {t t' : Token} {out : Str} (h : TokNew c t t') (hf : isFieldSep t = true → out = spell t)
    (ho : out = spell t') : Akin t t' := by
  rcases h with rfl | ⟨s, h1, _, h2⟩ | ⟨h1, h2, _⟩
  · exact .inl rfl
  · exact .inr ⟨s, _, h1, h2⟩
  · exact .inl (spell_fieldSep_inj h1 h2 (ho.symm.trans (hf h1)))

/-- A pair that does not involve the braces of a table from inside. -/
def spaceN (p t : Token) (H : Str) : Bool := p != .openCurly && t != .closeCurly && spaceB [] p t H

theorem spaceN_any {p t : Token} {H : Str} (h : spaceN p t H = true) (w : Str) : spaceB w p t H = true := by
  simp only [spaceN, Bool.and_eq_true, bne_iff_ne, ne_eq] at h
  obtain ⟨⟨h1, h2⟩, h⟩ := h
  unfold spaceB at h ⊢
  rw [if_neg (show ¬ (p = .openCurly ∨ t = .closeCurly) by simp [h1, h2])] at h ⊢
  exact h

/-! ### The checks -/

/-- The next part may start with one of these tokens, behind the hints `H`. -/
def Prev.fits (K : Token → Token → Str → Bool) : Prev → Str → List Token → Bool
  | .ext, _, _ => true
  | .last ks, H, fs => ks.all fun k => fs.all fun f => K k f H
  | .any, _, _ => false

/-- The hints of a fixed sequence without a field list. -/
def slotsSpace (K : Token → Token → Str → Bool) : Prev → Str → Nat → List Slot → List Sym → Bool
  | _, _, _, [], [] => true
  | .ext, _, _, .gap _ _ :: _, _ :: _ => false
  | .any, _, _, .gap _ _ :: _, _ :: _ => false
  | P, H, k, .gap _ h :: S, s :: ss => H == [] && (h == [] || h == [' ']) && slotsSpace K P (H ++ h) k S (s :: ss)
  | P, H, k, .lit w :: S, .t tok :: ss => w == spell tok && P.fits K H [tok.kind] && slotsSpace K (.last [tok.kind]) [] k S ss
  | P, H, k, .kid i :: S, .n n :: ss => i == k && n != .fieldList && P.fits K H (firstToks n) &&
      slotsSpace K (.last (lastToks n)) [] (k + 1) S ss
  | _, _, _, _, _ => false

/-- The separators that may be written in a list. -/
def sepToks (tag : Tag) : List Token := if tag.isFields then [.comma, .semicolon] else [sepTok tag]

def sepSpace (tag : Tag) (ss : List Sym) : Bool :=
  let ns := ss.flatMap Sym.nts
  ((ns.flatMap lastToks).all fun l => (sepToks tag).all fun s => spaceN l s []) &&
    (sepToks tag).all fun s => (ns.flatMap firstToks).all fun f => spaceN s f (elementHint tag)

/-- The tokens of names, numerals and strings. -/
def leafToks : List Token :=
  [.variable [], .numeral [], .normalString [], .charString [], .multiLineString 0 [], .sheBang []]

def plainSpace (ss : List Sym) : Bool :=
  let ns := ss.flatMap Sym.nts
  (ns.flatMap lastToks).all fun l => (ns.all fun n => prods.all fun q =>
    !(chainHeads n).contains q.1 || (rhsFirsts q.2.2).all fun f => spaceN l f (itemHint q.2.1)) &&
      ns.all fun n => (firstToks n).all fun f => !leafToks.contains f || spaceN l f [' ']

def Tag.isTable : Tag → Bool
  | .tableConstructor _ _ | .tableConstructorEmpty => true
  | _ => false

/-- What is checked of every production. -/
def spacesCheck (p : NT × Tag × List Sym) : Bool :=
  match p.2.1.leafText with
  | some _ => true
  | none =>
    match p.2.1.seps with
    | some _ => sepSpace p.2.1 p.2.2
    | none =>
      if p.2.1.isPlainList then plainSpace p.2.2
      else if p.2.1.isTable then
        p.2.2 == [.t .openCurly, .n .fieldList, .t .closeCurly] && p.2.1 != .tableConstructorEmpty ||
        p.2.2 == [.t .openCurly, .t .closeCurly] && p.2.1 == .tableConstructorEmpty
      else
        match frame Config.default p.2.1 with
        | some fr => slotsSpace spaceN .ext [] 0 fr p.2.2
        | none => false

theorem prods_spaces : ∀ p ∈ prods, spacesCheck p = true := by decide +kernel

/-! ### Parts -/

/-- What must follow a part. -/
def SpCont (c : Config) (x : Cst TokL) (is : List Item) (rest : List TokL) : Prop :=
  if x.isFl = true then ∀ p, Spaces c (some p) [] is rest
  else ∀ l l', x.yield.getLast? = some l → Akin l.tok l' → Spaces c (some l') [] is rest

/-- The hints of a part are as they should be. -/
def SpGood (c : Config) (x : Cst TokL) : Prop :=
  ∀ pw H is rest, (∀ t, x.yield.head? = some t → SpaceIn c pw t.tok H) → SpCont c x is rest →
    Spaces c pw H ((placeC x).items c ++ is) (x.yield ++ rest)

theorem spaces_lit {pw : Option Token} {H src out : Str} {is : List Item} {u : TokL} {rest : List TokL}
    (hf : isFieldSep u.tok = true → out = spell u.tok) (hh : SpaceIn c pw u.tok H)
    (hC : ∀ l', Akin u.tok l' → Spaces c (some l') [] is rest) : Spaces c pw H (.lit src out :: is) (u :: rest) := by
  intro t' hn ho
  have ha := hn.akin hf ho
  exact ⟨(hh.akin ha).ok, hC _ ha⟩

theorem spGood_tok (t : TokL) : SpGood c (.tok t) := by
  intro pw H is rest h1 h2
  refine spaces_lit (fun _ => rfl) (h1 t rfl) fun l' hl => ?_
  exact h2 t l' rfl hl

/-- What is known about the state before the rest of a fixed sequence. -/
def Prev.sp (c : Config) (P : Prev) (Hc H : Str) (pw : Option Token) (ts : List TokL) : Prop :=
  match P with
  | .ext => ∀ t, ts.head? = some t → SpaceIn c pw t.tok H
  | .last ks => H = Hc ∧ ∃ p p', pw = some p' ∧ Akin p p' ∧ p.kind ∈ ks
  | .any => True

theorem spaceIn_of {K : Token → Token → Str → Bool} (hK : ∀ p t H, K p t H = true → spaceB (tableHint c) p t H = true)
    {p p' t : Token} {H : Str} (h : K p.kind t.kind H = true) (ha : Akin p p') : SpaceIn c (some p') t H := by
  have h1 := hK _ _ _ h
  rw [spaceB_kind] at h1
  rcases ha with rfl | ⟨s, s', rfl, rfl⟩
  · exact h1
  · exact (spaceB_string _ s s' t H).1.trans h1

theorem Prev.sp.head {K : Token → Token → Str → Bool} (hK : ∀ p t H, K p t H = true → spaceB (tableHint c) p t H = true)
    {P : Prev} {Hc H : Str} {pw : Option Token} {ts : List TokL} {fs : List Token} {t : TokL} (h : P.sp c Hc H pw ts)
    (hok : P.fits K Hc fs = true) (hh : ts.head? = some t) (ht : t.tok.kind ∈ fs) : SpaceIn c pw t.tok H := by
  cases P with
  | ext => exact h t hh
  | any => cases hok
  | last ks =>
    obtain ⟨rfl, p, p', rfl, ha, hp⟩ := h
    exact spaceIn_of hK (List.all_eq_true.mp (List.all_eq_true.mp hok _ hp) _ ht) ha

theorem sp_cons_last {x : Cst TokL} {xs : List (Cst TokL)} {is : List Item} {rest : List TokL}
    (hC : ∀ l l', (Cst.yields (x :: xs)).getLast? = some l → Akin l.tok l' → Spaces c (some l') [] is rest) :
    ∀ l l', (Cst.yields xs).getLast? = some l → Akin l.tok l' → Spaces c (some l') [] is rest := by
  intro l l' hl
  refine hC l l' ?_
  simp only [Cst.yields]
  exact getLast?_append_some hl

theorem slots_spaces {K : Token → Token → Str → Bool} (hK : ∀ p t H, K p t H = true → spaceB (tableHint c) p t H = true)
    {locs : List Loc} {ks : List (List Item)} {is : List Item} {rest : List TokL} : ∀ (S : List Slot)
    {P : Prev} {Hc H : Str} {k : Nat} {pw : Option Token} {ss : List Sym} {xs : List (Cst TokL)},
    slotsSpace K P Hc k S ss = true → FitsD ss xs → (∀ x ∈ xs, SpGood c x) → ks.drop k = kidItems c xs →
    P.sp c Hc H pw (Cst.yields xs ++ rest) →
    (∀ l l', (Cst.yields xs).getLast? = some l → Akin l.tok l' → Spaces c (some l') [] is rest) →
    (xs = [] → Spaces c pw H is rest) →
    Spaces c pw H (S.flatMap (slotItems locs ks) ++ is) (Cst.yields xs ++ rest) := by
  intro S
  induction S with
  | nil =>
    intro P Hc H k pw ss xs hc hf hg hk hP hC hE
    cases ss with
    | nil => cases hf; exact hE rfl
    | cons => simp [slotsSpace] at hc
  | cons s S ih =>
    intro P Hc H k pw ss xs hc hf hg hk hP hC hE
    cases ss with
    | nil => cases s <;> simp [slotsSpace] at hc
    | cons sy ss =>
      have hne : xs ≠ [] := by cases hf <;> simp
      cases s with
      | gap i h =>
        cases P with
        | ext => simp [slotsSpace] at hc
        | any => simp [slotsSpace] at hc
        | last q =>
          have hc : (Hc == [] && (h == [] || h == [' ']) && slotsSpace K (.last q) (Hc ++ h) k S (sy :: ss)) = true := by
            simpa only [slotsSpace] using hc
          simp only [Bool.and_eq_true, Bool.or_eq_true, beq_iff_eq] at hc
          obtain ⟨⟨hc1, hc2⟩, hc⟩ := hc
          exact ⟨⟨.inl (hP.1.trans hc1), short_of (.inl (hP.1.trans hc1)), short_of hc2⟩,
            ih hc hf hg hk ⟨by rw [hP.1], hP.2⟩ hC (fun e => absurd e hne)⟩
      | extra h => simp [slotsSpace] at hc
      | lit w =>
        cases hf with
        | n => simp [slotsSpace] at hc
        | @t tok t ss xs e hf =>
          simp only [slotsSpace, Bool.and_eq_true] at hc
          have hw := eq_of_beq hc.1.1
          refine spaces_lit (fun _ => by rw [hw, e]) (hP.head hK hc.1.2 rfl (by rw [e]; exact List.mem_singleton.mpr rfl)) fun l' hl => ?_
          refine ih hc.2 hf (fun x hx => hg x (List.mem_cons_of_mem _ hx)) ?_ ?_ (sp_cons_last hC) ?_
          · rw [hk]; simp [kidItems, placeAll, placeC, Part.node?, List.filterMap_cons]
          · exact ⟨rfl, t.tok, l', rfl, hl, by rw [e]; exact List.mem_singleton.mpr rfl⟩
          · intro e; subst e; exact hC t l' rfl hl
      | kid i =>
        cases hf with
        | t => simp [slotsSpace] at hc
        | @n n x ss xs hd hf =>
          simp only [slotsSpace, Bool.and_eq_true, bne_iff_ne, ne_eq] at hc
          obtain ⟨⟨⟨hi, hnf⟩, h1⟩, h2⟩ := hc
          have hi := eq_of_beq hi
          subst hi
          obtain ⟨tag, ys, rfl⟩ := strip_derives hd
          have hk0 : ks.drop i = (placeC (.node tag ys)).items c :: kidItems c xs := by
            rw [hk]; simp [kidItems, placeAll, placeC, Part.node?, Node.itemsAll, Part.items]
          have hk1 : ks[i]?.getD [] = (placeC (.node tag ys)).items c := by
            have := congrArg List.head? hk0
            simp only [List.head?_drop, List.head?_cons] at this
            simp [this]
          have hk2 : ks.drop (i + 1) = kidItems c xs := by
            have := congrArg List.tail hk0
            simpa [List.tail_drop] using this
          obtain ⟨t, ts, hy, ht⟩ := first_tok hd
          simp only [List.flatMap_cons, slotItems, hk1, Cst.yields, List.append_assoc]
          refine hg _ List.mem_cons_self pw H _ _ ?_ ?_
          · intro u hu
            rw [hy] at hu
            cases hu
            exact hP.head hK h1 (by simp only [Cst.yields, hy]; rfl) ht
          · unfold SpCont
            split
            · next hfl => exact absurd (derives_fields hd (by rw [isFl_strip]; exact hfl)) hnf
            · intro l l' hl ha
              refine ih h2 hf (fun x hx => hg x (List.mem_cons_of_mem _ hx)) hk2 ?_ (sp_cons_last hC) ?_
              · exact ⟨rfl, l.tok, l', rfl, ha, last_tok hd hl⟩
              · intro e
                subst e
                exact hC l l' (by simpa [Cst.yields] using hl) ha

/-! ### Lists -/

theorem spCont_cont {t : Tag} {ys : List (Cst TokL)} {is : List Item} {rest : List TokL} (hn : (Cst.node t ys).isFl = false)
    (h : ∀ l l', (Cst.node t ys).yield.getLast? = some l → Akin l.tok l' → Spaces c (some l') [] is rest) :
    SpCont c (.node t ys) is rest := by
  unfold SpCont
  rw [hn]
  simpa using h

/-- The separator that is written in a list. -/
theorem sep_written {tag : Tag} (hs : tag.seps.isSome = true) {s t' : Token}
    (h : s = sepTok tag ∨ (tag.isFields = true ∧ isFieldSep s = true))
    (hn : TokNew c s t') (ho : (separator c tag).getD (spell s) = spell t') : t' ∈ sepToks tag := by
  unfold sepToks
  split
  · next hf =>
    have h1 : isFieldSep s = true := by
      rcases h with rfl | h
      · cases tag <;> simp [Tag.isFields] at hf <;> rfl
      · exact h.2
    rcases isFieldSep_cases (hn.fieldSep h1) with rfl | rfl <;> simp
  · next hf =>
    have h : s = sepTok tag := h.resolve_right fun h => hf h.1
    subst h
    have hsp : (separator c tag).getD (spell (sepTok tag)) = spell (sepTok tag) := by
      cases tag <;> simp [Tag.seps] at hs <;> first | rfl | (exact absurd rfl hf)
    have ha := hn.akin (out := (separator c tag).getD (spell (sepTok tag))) (fun _ => hsp) ho
    rcases ha with rfl | ⟨w, w', e, _⟩
    · simp
    · rcases sepTok_cases tag with e' | e' <;> rw [e'] at e <;> cases e

theorem sepToks_kind (tag : Tag) {t : Token} (h : t ∈ sepToks tag) : t.kind = t := by
  unfold sepToks at h
  split at h
  · simp only [List.mem_cons, List.not_mem_nil, or_false] at h
    rcases h with rfl | rfl <;> rfl
  · rw [List.mem_singleton.mp h, sepTok_kind]

theorem elementHint_short (tag : Tag) : elementHint tag = [] ∨ elementHint tag = [' '] := by
  cases tag <;> first | exact .inl rfl | exact .inr rfl

theorem itemHint_short (tag : Tag) : itemHint tag = [] ∨ itemHint tag = [' '] := by
  cases tag <;> first | exact .inl rfl | exact .inr rfl

theorem sepIs_spaces {tag : Tag} {fs ls : List Token} (hso : tag.seps.isSome = true)
    (h1 : (ls.all fun l => (sepToks tag).all fun s => spaceN l s []) = true)
    (h2 : ((sepToks tag).all fun s => fs.all fun f => spaceN s f (elementHint tag)) = true)
    {xs : List (Cst TokL)} (hs : SepShape tag xs) : ∀ {pw : Option Token} {H h : Str} {pre : Loc} {is : List Item}
      {rest : List TokL}, (H = [] ∨ pre.l = pre.r) → Short c H → h = [] ∨ h = [' '] →
    (∀ x ∈ xs, SpGood c x) → (∀ x ∈ xs, x.isFl = false) →
    (∀ t ys, .node t ys ∈ xs → Bounds fs ls (.node t ys)) →
    (∀ t, (Cst.yields xs).head? = some t → SpaceIn c pw t.tok (H ++ h)) →
    (if tag.isFields = true then ∀ p, Spaces c (some p) [] is rest
      else ∀ l l', (Cst.yields xs).getLast? = some l → Akin l.tok l' → Spaces c (some l') [] is rest) →
    Spaces c pw H (sepIs c tag h (sepLocs pre (placeAll xs)).1 (kidItems c xs) (sepLocs pre (placeAll xs)).2 ++ is)
      (Cst.yields xs ++ rest) := by
  have hsep_ok : ∀ {p p' s : Token}, Akin p p' → p.kind ∈ ls → s ∈ sepToks tag → SpaceIn c (some p') s [] := by
    intro p p' s ha hp hs
    have := List.all_eq_true.mp (List.all_eq_true.mp h1 _ hp) _ hs
    rw [← sepToks_kind tag hs] at this
    exact spaceIn_of (fun p t H h => spaceN_any h _) this ha
  induction hs with
  | one t ys =>
    intro pw H h pre is rest hl hsH hq hg hn hb hh hC
    have hx := hg _ List.mem_cons_self
    have hy : Cst.yields [Cst.node t ys] = (Cst.node t ys).yield := by simp [Cst.yields]
    obtain ⟨_, hlast⟩ := hb t ys List.mem_cons_self
    rw [hy] at hh hC ⊢
    have := hx pw (H ++ h) ([.gap ⟨(placeC (.node t ys)).span.r, (placeC (.node t ys)).span.r⟩ [],
      .trail tag.isFields [] ((separator c tag).getD [])] ++ is) rest hh (spCont_cont (hn _ List.mem_cons_self) fun l l' hl ha => by
        refine ⟨⟨.inl rfl, short_of (.inl rfl), short_of (.inl rfl)⟩, ?_⟩
        show Spaces c (some l') ([] ++ []) (.trail tag.isFields [] ((separator c tag).getD []) :: is) rest
        cases hf : tag.isFields with
        | false =>
          rw [hf, if_neg (by simp)] at hC
          exact hC l l' hl ha
        | true =>
          rw [hf] at hC
          have hC : ∀ p, Spaces c (some p) [] is rest := by simpa using hC
          refine ⟨hC _, fun sep hsep => ⟨SpaceIn.ok (hsep_ok ha (hlast l hl) ?_), hC _⟩⟩
          unfold sepToks
          rw [if_pos hf]
          rcases isFieldSep_cases hsep with rfl | rfl <;> simp)
    have := And.intro (And.intro hl (And.intro hsH (short_of (c := c) hq))) this
    simpa [placeAll, sepLocs, kidItems, placeC, Part.node?, Node.itemsAll, sepIs, Part.items, Spaces] using this
  | trail t ys s hf hsep =>
    intro pw H h pre is rest hl hsH hq hg hn hb hh hC
    have hx := hg _ List.mem_cons_self
    rw [if_pos hf] at hC
    have hy : Cst.yields [Cst.node t ys, .tok s] = (Cst.node t ys).yield ++ [s] := by simp [Cst.yields, Cst.yield]
    obtain ⟨⟨u, us, hu, _⟩, hlast⟩ := hb t ys List.mem_cons_self
    have hsp : sepText s.tok = spell s.tok := by
      rcases isFieldSep_cases hsep with e | e
      · exact sepText_spell (.inl e)
      · exact sepText_spell (.inr (.inl e))
    rw [hy, List.append_assoc]
    rw [hy, hu] at hh
    have := hx pw (H ++ h) ([.gap ⟨(placeC (.node t ys)).span.r, s.l⟩ [],
      .trail true (spell s.tok) ((separator c tag).getD (spell s.tok))] ++ is) ([s] ++ rest)
      (by rw [hu]; exact hh) (spCont_cont (hn _ List.mem_cons_self) fun l l' hl ha => by
        obtain ⟨y, hy⟩ := spell_fieldSep hsep
        refine ⟨⟨.inl rfl, short_of (.inl rfl), short_of (.inl rfl)⟩, ?_⟩
        show Spaces c (some l') ([] ++ []) (.trail true (spell s.tok) ((separator c tag).getD (spell s.tok)) :: is) (s :: rest)
        rw [hy]
        refine ⟨hC _, fun sep hsep => ⟨SpaceIn.ok (hsep_ok ha (hlast l hl) ?_), hC _⟩⟩
        unfold sepToks
        rw [if_pos hf]
        rcases isFieldSep_cases hsep with rfl | rfl <;> simp)
    have := And.intro (And.intro hl (And.intro hsH (short_of (c := c) hq))) this
    simpa [placeAll, sepLocs, kidItems, placeC, Part.node?, Node.itemsAll, sepIs, Part.items, Spaces, List.filterMap_cons, hsp, hf,
      Part.span] using this
  | cons t ys s xs hsep hsh ih =>
    intro pw H h pre is rest hl hsH hq hg hn hb hh hC
    have hx := hg _ List.mem_cons_self
    obtain ⟨⟨u, us, hu, _⟩, hlast⟩ := hb t ys List.mem_cons_self
    have hsp : sepText s.tok = spell s.tok := by
      rcases hsep with e | ⟨_, e⟩
      · rcases sepTok_cases tag with e' | e'
        · exact sepText_spell (.inl (e.trans e'))
        · exact sepText_spell (.inr (.inr (e.trans e')))
      · rcases isFieldSep_cases e with e | e
        · exact sepText_spell (.inl e)
        · exact sepText_spell (.inr (.inl e))
    obtain ⟨y, ys', rfl⟩ := sepShape_ne hsh
    have hne := fun pre => sepIs_ne (c := c) (h := elementHint tag) (pre := pre) hsh
    have hhead : ∃ t0 zs, y = .node t0 zs := by cases hsh <;> exact ⟨_, _, rfl⟩
    obtain ⟨t0, zs, rfl⟩ := hhead
    obtain ⟨⟨v, vs, hv, hvk⟩, _⟩ := hb t0 zs (by simp)
    have ih' := fun (s' : Token) (hs' : s' ∈ sepToks tag) =>
      ih (pw := some s') (H := []) (h := elementHint tag) (pre := ⟨s.r, (placeC (.node t0 zs)).span.l⟩) (is := is)
      (rest := rest) (.inl rfl) (short_of (.inl rfl)) (elementHint_short tag)
      (fun x hx => hg x (List.mem_cons_of_mem _ (List.mem_cons_of_mem _ hx)))
      (fun x hx => hn x (List.mem_cons_of_mem _ (List.mem_cons_of_mem _ hx)))
      (fun t ys h => hb t ys (List.mem_cons_of_mem _ (List.mem_cons_of_mem _ h)))
      (fun w hw => by
        have hw : w = v := by
          simp only [Cst.yields, hv, List.cons_append, List.head?_cons, Option.some.injEq] at hw
          exact hw.symm
        subst hw
        have := List.all_eq_true.mp (List.all_eq_true.mp h2 _ hs') _ hvk
        rw [← sepToks_kind tag hs'] at this
        exact spaceIn_of (fun p t H h => spaceN_any h _) this (.refl s'))
      (by
        split
        · next hf => rw [if_pos hf] at hC; exact hC
        · next hf =>
          rw [if_neg hf] at hC
          intro l l' hl
          refine hC l l' ?_
          simp only [Cst.yields] at hl ⊢
          exact getLast?_append_some (getLast?_append_some hl))
    have := hx pw (H ++ h) ([.gap ⟨(placeC (.node t ys)).span.r, s.l⟩ [],
      .lit (spell s.tok) ((separator c tag).getD (spell s.tok))] ++
        (sepIs c tag (elementHint tag) (sepLocs ⟨s.r, (placeC (.node t0 zs)).span.l⟩ (placeAll (.node t0 zs :: ys'))).1
          (kidItems c (.node t0 zs :: ys')) (sepLocs ⟨s.r, (placeC (.node t0 zs)).span.l⟩ (placeAll (.node t0 zs :: ys'))).2 ++ is))
      (s :: (Cst.yields (.node t0 zs :: ys') ++ rest))
      (by
        rw [hu]
        intro w hw
        refine hh w ?_
        simp only [Cst.yields, hu, List.cons_append]
        exact hw) (spCont_cont (hn _ List.mem_cons_self) fun l l' hl ha => by
        refine ⟨⟨.inl rfl, short_of (.inl rfl), short_of (.inl rfl)⟩, ?_⟩
        intro t' hnew ho
        have hm := sep_written hso hsep hnew ho
        exact ⟨SpaceIn.ok (hsep_ok ha (hlast l hl) hm), ih' t' hm⟩)
    have hne := hne ⟨s.r, (placeC (.node t0 zs)).span.l⟩
    have := And.intro (And.intro hl (And.intro hsH (short_of (c := c) hq))) this
    simp only [placeAll, sepLocs, kidItems, placeC, Part.node?, Node.itemsAll, sepIs, Cst.yields, Cst.yield,
      Part.items, Part.span, List.filterMap_cons, hsp, List.cons_append, List.append_assoc, Spaces, List.nil_append] at this hne ⊢
    rw [hne]
    simpa using this

theorem leafTag_leaf {t : Token} {a : NT} {tag : Tag} (h : leafTag t = some (a, tag)) : t.kind ∈ leafToks := by
  unfold leafTag at h
  split at h <;> cases h <;> simp [Token.kind, leafToks]

theorem plainIs_spaces {ns : List NT}
    (hck : ((ns.flatMap lastToks).all fun l => (ns.all fun n => prods.all fun q =>
      !(chainHeads n).contains q.1 || (rhsFirsts q.2.2).all fun f => spaceN l f (itemHint q.2.1)) &&
        ns.all fun n => (firstToks n).all fun f => !leafToks.contains f || spaceN l f [' ']) = true)
    {is : List Item} {rest : List TokL} {xs : List (Cst TokL)} : ∀ {p : Part} {p0 p1 : Token},
    (∀ x ∈ xs, SpGood c x) → (∀ x ∈ xs, x.isFl = false) → (∀ x ∈ xs, ∃ n ∈ ns, Derives n (strip x)) →
    p0.kind ∈ ns.flatMap lastToks → Akin p0 p1 →
    (∀ l l', (Cst.yields xs).getLast? = some l → Akin l.tok l' → Spaces c (some l') [] is rest) →
    (xs = [] → Spaces c (some p1) [] is rest) →
    Spaces c (some p1) [] (plainIs (gapsOf (p :: placeAll xs))
      ((((placeAll xs).filterMap Part.node?).map Node.tag).zip (kidItems c xs)) ++ is) (Cst.yields xs ++ rest) := by
  induction xs with
  | nil =>
    intro p p0 p1 _ _ _ _ _ _ hE
    exact hE rfl
  | cons x xs ih =>
    intro p p0 p1 hg hn hd hp ha hC hE
    obtain ⟨n, hnn, hdx⟩ := hd _ List.mem_cons_self
    obtain ⟨tag, ys, rfl⟩ := strip_derives hdx
    have hpair : ∀ t, (Cst.node tag ys).yield.head? = some t →
        SpaceIn c (some p1) t.tok ([] ++ itemHint (buildNode tag (placeAll ys)).tag) := by
      intro t ht
      rw [itemHint_build, List.nil_append]
      have h0 := List.all_eq_true.mp hck _ hp
      rw [Bool.and_eq_true] at h0
      rcases derives_head hdx with ⟨a, tag', ss, cs, e, hq, ha', hm⟩ | ⟨a, tag', t', e, hl⟩
      · cases e
        have h1 := List.all_eq_true.mp h0.1 _ hnn
        have h2 := List.all_eq_true.mp h1 _ hq
        simp only [Bool.or_eq_true] at h2
        rcases h2 with h2 | h2
        · simp [ha'] at h2
        · obtain ⟨u, us, e1, e2⟩ := matches_first hm (prods_firsts _ hq).1
          rw [stripAll_yields] at e1
          have : t.tok = u := by
            have := congrArg List.head? e1
            simp only [Cst.yield] at ht
            simpa [ht] using this
          subst this
          exact spaceIn_of (fun p t H h => spaceN_any h _) (List.all_eq_true.mp h2 _ e2) ha
      · obtain ⟨u, us, e1, e2⟩ := first_tok hdx
        have : t = u := by rw [e1] at ht; cases ht; rfl
        subst this
        have h1 := List.all_eq_true.mp (List.all_eq_true.mp h0.2 _ hnn) _ e2
        have hk : t.tok = t' := by
          have := strip_yield (.node tag ys)
          rw [e, e1] at this
          simp [Cst.yield, Cst.yields] at this
          exact this.1.symm
        simp only [strip, Cst.node.injEq] at e
        rw [hk] at h1
        simp only [Bool.or_eq_true, Bool.not_eq_true', List.contains_eq_mem, decide_eq_false_iff_not] at h1
        have h1 := h1.resolve_left fun h => h (leafTag_leaf hl)
        rw [e.1, (leafTag_kinds hl).2.2.2, hk]
        exact spaceIn_of (fun p t H h => spaceN_any h _) h1 ha
    have := hg _ List.mem_cons_self (some p1) ([] ++ itemHint (buildNode tag (placeAll ys)).tag)
      (plainIs (gapsOf (placeC (.node tag ys) :: placeAll xs))
      ((((placeAll xs).filterMap Part.node?).map Node.tag).zip (kidItems c xs)) ++ is) (Cst.yields xs ++ rest) hpair
      (spCont_cont (hn _ List.mem_cons_self) fun l l' hl ha => by
        refine ih (fun x hx => hg x (List.mem_cons_of_mem _ hx)) (fun x hx => hn x (List.mem_cons_of_mem _ hx))
          (fun x hx => hd x (List.mem_cons_of_mem _ hx)) (List.mem_flatMap.mpr ⟨n, hnn, last_tok hdx hl⟩) ha
          (sp_cons_last hC) ?_
        intro e
        subst e
        exact hC l l' (by simpa [Cst.yields] using hl) ha)
    have := And.intro (And.intro (Or.inl rfl : ([] : Str) = [] ∨ p.span.r = (placeC (.node tag ys)).span.l)
      (And.intro (short_of (c := c) (Or.inl rfl : ([] : Str) = [] ∨ ([] : Str) = [' '])) (short_of (c := c) (itemHint_short (buildNode tag (placeAll ys)).tag)))) this
    simpa [placeAll, gapsOf, placeC, Part.node?, kidItems, Node.itemsAll, plainIs, Part.items, Cst.yields, Spaces] using this

theorem plainIs0_spaces {ns : List NT}
    (hck : ((ns.flatMap lastToks).all fun l => (ns.all fun n => prods.all fun q =>
      !(chainHeads n).contains q.1 || (rhsFirsts q.2.2).all fun f => spaceN l f (itemHint q.2.1)) &&
        ns.all fun n => (firstToks n).all fun f => !leafToks.contains f || spaceN l f [' ']) = true)
    {is : List Item} {rest : List TokL} {x : Cst TokL} {xs : List (Cst TokL)} {l0 : Nat} {pw : Option Token} {H : Str}
    (hg : ∀ y ∈ x :: xs, SpGood c y) (hn : ∀ y ∈ x :: xs, y.isFl = false) (hd : ∀ y ∈ x :: xs, ∃ n ∈ ns, Derives n (strip y))
    (hh : ∀ t, (Cst.yields (x :: xs)).head? = some t → SpaceIn c pw t.tok H)
    (hC : ∀ l l', (Cst.yields (x :: xs)).getLast? = some l → Akin l.tok l' → Spaces c (some l') [] is rest) :
    Spaces c pw H (plainIs0 (⟨l0, l0⟩ :: gapsOf (placeAll (x :: xs)))
      ((((placeAll (x :: xs)).filterMap Part.node?).map Node.tag).zip (kidItems c (x :: xs))) ++ is)
        (Cst.yields (x :: xs) ++ rest) := by
  obtain ⟨n, hnn, hdx⟩ := hd _ List.mem_cons_self
  obtain ⟨tag, ys, rfl⟩ := strip_derives hdx
  obtain ⟨u, us, hu, _⟩ := first_tok hdx
  have := hg _ List.mem_cons_self pw H
    (plainIs (gapsOf (placeC (.node tag ys) :: placeAll xs))
    ((((placeAll xs).filterMap Part.node?).map Node.tag).zip (kidItems c xs)) ++ is) (Cst.yields xs ++ rest)
    (by
      rw [hu]
      intro w hw
      refine hh w ?_
      simp only [Cst.yields, hu, List.cons_append]
      exact hw)
    (spCont_cont (hn _ List.mem_cons_self) fun l l' hl ha => by
      refine plainIs_spaces hck (fun x hx => hg x (List.mem_cons_of_mem _ hx)) (fun x hx => hn x (List.mem_cons_of_mem _ hx))
        (fun x hx => hd x (List.mem_cons_of_mem _ hx)) (List.mem_flatMap.mpr ⟨n, hnn, last_tok hdx hl⟩) ha
        (sp_cons_last hC) ?_
      intro e
      subst e
      exact hC l l' (by simpa [Cst.yields] using hl) ha)
  have hs : Short c H := (hh u (by simp [Cst.yields, hu])).short
  have := And.intro (And.intro hs (short_of (c := c) (Or.inl rfl : ([] : Str) = [] ∨ ([] : Str) = [' ']))) this
  simpa [placeAll, gapsOf, placeC, Part.node?, kidItems, Node.itemsAll, plainIs0, Part.items, Cst.yields, Spaces] using this

/-! ### Tables -/

theorem akin_self {t t' : Token} (h : Akin t t') (hn : ∀ s, t ≠ .charString s) : t' = t := by
  rcases h with h | ⟨s, _, h, _⟩
  · exact h
  · exact absurd h (hn s)

theorem close_spaces {p : Token} {g : Loc} {v : TokL} (hv : v.tok = .closeCurly) {is : List Item} {rest : List TokL}
    (hC : Spaces c (some v.tok) [] is rest) :
    Spaces c (some p) [] (.gap g (tableHint c) :: .lit ['}'] ['}'] :: is) (v :: rest) := by
  refine ⟨⟨.inl rfl, short_of (.inl rfl), fun h => h⟩, ?_⟩
  show Spaces c (some p) ([] ++ tableHint c) (.lit ['}'] ['}'] :: is) (v :: rest)
  refine spaces_lit (fun h => by rw [hv] at h; cases h) ?_ fun l' hl => ?_
  · rw [hv, List.nil_append]
    simp [SpaceIn, spaceB]
  · rw [akin_self hl (by simp [hv])]
    exact hC

theorem open_ok {pw : Option Token} {H : Str} (h : SpaceIn c pw .openCurly H) : SpaceOk c pw .openCurly (H ++ tableHint c) :=
  ⟨H, h, .inr ⟨rfl, rfl⟩⟩

theorem open_in (t : Token) : SpaceIn c (some .openCurly) t (tableHint c) := by simp [SpaceIn, spaceB]

/-! ### Nodes -/

theorem node_spaces {n : NT} {tag : Tag} {xs : List (Cst TokL)}
    (h : Derives n (.node tag (stripAll xs))) (hg : ∀ x ∈ xs, SpGood c x) : SpGood c (.node tag xs) := by
  intro pw H is rest hh hC
  simp only [Cst.yield] at hh ⊢
  rcases derives_inv h with ⟨a, tag', ss, cs, e, hp, hm⟩ | ⟨a, tag', t, e, hl⟩
  · cases e
    have hc := prods_checked _ hp
    have hne := (prods_firsts _ hp).1
    have hxs : ∃ y ys, xs = y :: ys := by
      cases xs with
      | cons y ys => exact ⟨y, ys, rfl⟩
      | nil =>
        simp only [stripAll] at hm
        cases hm
        exact absurd rfl hne
    obtain ⟨y, ys, rfl⟩ := hxs
    show Spaces c pw H ((buildNode tag (placeAll (y :: ys))).items c ++ is) (Cst.yields (y :: ys) ++ rest)
    have hkids : ∀ z ∈ y :: ys, (∃ t, z = .tok t) ∨ ∃ n ∈ ss.flatMap Sym.nts, Derives n (strip z) := by
      intro z hz
      rcases matches_nts hm _ (mem_stripAll hz) with ⟨t, e⟩ | h
      · obtain ⟨u, e, _⟩ := strip_tok e
        exact .inl ⟨u, e⟩
      · exact .inr h
    have hfl : tag.isFields = false → ∀ l l', (Cst.yields (y :: ys)).getLast? = some l → Akin l.tok l' →
        Spaces c (some l') [] is rest := by
      intro e
      unfold SpCont at hC
      rw [if_neg (by simp [Cst.isFl, e])] at hC
      simpa [Cst.yield] using hC
    have hck := prods_spaces _ hp
    simp only [spacesCheck] at hck
    simp only [prodCheck] at hc
    split at hc
    · -- a leaf
      rename_i s hs
      split at hc
      · rename_i tok
        simp only [Bool.and_eq_true] at hc
        have hf := fits_of_matches (xs := y :: ys) (by rfl) (by rfl) hm
        cases hf with
        | t e3 hf =>
          cases hf
          rename_i u
          have hsep : tag.seps = none := by
            cases tag <;> simp [Tag.leafText] at hs <;> rfl
          have hpl : tag.isPlainList = false := by
            cases tag <;> simp [Tag.leafText] at hs <;> rfl
          have hfi : tag.isFields = false := by
            cases tag <;> simp [Tag.leafText] at hs <;> rfl
          have hit : (buildNode tag (placeAll [.tok u])).items c =
              [.lit s (((annotateTag c none tag []).leafText).getD s)] := by
            unfold buildNode
            simp only [hsep, hpl, Node.items, itemsOf, hs, Bool.false_eq_true, if_false]
          rw [hit]
          refine spaces_lit (fun hf => ?_) (hh u rfl) fun l' hl => hfl hfi u l' rfl hl
          have e1 := eq_of_beq hc.1
          rcases leaf_out (c := c) hs with e | ⟨w, rfl, _⟩
          · rw [e, e1, e3]
          · simp only [Tag.leafText, Option.some.injEq] at hs
            rw [e1, ← e3] at hs
            rcases isFieldSep_cases hf with e | e <;> rw [e] at hs <;> simp [spell] at hs
      · cases hc
    · rename_i hs
      split at hc
      · -- a list with separators
        rename_i sps hsep
        simp only [Bool.and_eq_true] at hc
        have hfr : frame c tag = none := by
          have := frame_skel c tag
          rw [Option.isNone_iff_eq_none.mp hc.2] at this
          simpa using this
        have hsome : tag.seps.isSome = true := by rw [hsep]; rfl
        have hsh := sepShape_of_form hc.1 hm
        simp only [hs, hsep, sepSpace, Bool.and_eq_true] at hck
        have hsH : Short c H := by
          obtain ⟨u, us, e1, _⟩ := matches_first hm hne
          rw [stripAll_yields] at e1
          generalize Cst.yields (y :: ys) = l at hh e1
          cases l with
          | nil => cases e1
          | cons v l => exact (hh v rfl).short
        have := sepIs_spaces (c := c) hsome hck.1 hck.2 hsh (pw := pw) (H := H) (h := []) (pre := ⟨(placeC y).span.l, (placeC y).span.l⟩)
          (is := is) (rest := rest) (.inr rfl) hsH (.inl rfl) hg
          (prods_noFl _ hp (by simp [hsep]) hm) (by
            intro t zs hz
            rcases hkids _ hz with ⟨_, e⟩ | ⟨n, h1, h2⟩
            · cases e
            · exact bounds_of h1 h2) (by
            intro t ht
            have := hh t ht
            simpa using this) (by
            split
            · next hf =>
              unfold SpCont at hC
              rw [if_pos (show (Cst.node tag (y :: ys)).isFl = true from hf)] at hC
              exact hC
            · next hf => exact hfl (by simpa using hf))
        have hit : (buildNode tag (placeAll (y :: ys))).items c =
            sepIs c tag [] (sepLocs ⟨(placeC y).span.l, (placeC y).span.l⟩ (placeAll (y :: ys))).1
              (kidItems c (y :: ys))
              (sepLocs ⟨(placeC y).span.l, (placeC y).span.l⟩ (placeAll (y :: ys))).2 := by
          unfold buildNode
          simp only [hsep, Node.items, itemsOf, setSeps_leaf, hs, setSeps_frame, hfr, setSeps_seps hsome,
            setSeps_sepIs]
          rfl
        rw [hit]
        exact this
      · rename_i hsep
        split at hc
        · -- a list without separators
          rename_i hpl
          simp only [Bool.and_eq_true] at hc
          have hfr : frame c tag = none := by
            have := frame_skel c tag
            rw [Option.isNone_iff_eq_none.mp hc.2] at this
            simpa using this
          have hnodes : ∀ z ∈ y :: ys, ∃ n ∈ ss.flatMap Sym.nts, Derives n (strip z) := by
            intro z hz
            rcases hkids _ hz with ⟨t, e⟩ | h
            · obtain ⟨n, hd⟩ := nodes_of_matches hc.1.2 hm _ (mem_stripAll hz)
              rw [e] at hd
              exact absurd (strip_derives hd) (by rintro ⟨_, _, h⟩; cases h)
            · exact h
          simp only [hs, hsep, hpl, if_true, plainSpace] at hck
          have hfi : tag.isFields = false := by
            cases tag <;> simp [Tag.isPlainList] at hpl <;> rfl
          have := plainIs0_spaces (c := c) (l0 := (placeC y).span.l) hck hg
            (prods_noFl _ hp (by simp [hpl]) hm) hnodes hh (hfl hfi)
          have hit : (buildNode tag (placeAll (y :: ys))).items c =
              plainIs0 (⟨(placeC y).span.l, (placeC y).span.l⟩ :: gapsOf (placeAll (y :: ys)))
                ((((placeAll (y :: ys)).filterMap Part.node?).map Node.tag).zip (kidItems c (y :: ys))) := by
            unfold buildNode
            simp only [hsep, hpl, Node.items, itemsOf, hs, hfr, if_true]
            rfl
          rw [hit]
          exact this
        · -- a fixed sequence
          rename_i hpl
          simp only [Bool.and_eq_true] at hc
          have hsk := eq_of_beq hc.2
          rw [← frame_skel c tag] at hsk
          have hpl : tag.isPlainList = false := by simpa using hpl
          have hfi : tag.isFields = false := by
            cases tag <;> simp [Tag.seps] at hsep <;> rfl
          simp only [hs, hsep, hpl, Bool.false_eq_true, if_false] at hck
          cases hfr : frame c tag with
          | none => rw [hfr] at hsk; cases hsk
          | some fr =>
            have hit : (buildNode tag (placeAll (y :: ys))).items c =
                fr.flatMap (slotItems (gapsOf (placeAll (y :: ys))) (kidItems c (y :: ys))) := by
              unfold buildNode
              simp only [hsep, hpl, Bool.false_eq_true, if_false, Node.items, itemsOf, hs, hfr]
              rfl
            rw [hit]
            have hfd := fitsD_of_matches hc.1.2 hm
            split at hck
            · next htab =>
              -- a table
              simp only [Bool.or_eq_true, Bool.and_eq_true, beq_iff_eq, bne_iff_ne, ne_eq] at hck
              rcases hck with ⟨rfl, hne'⟩ | ⟨rfl, rfl⟩
              · have hfr' : fr = [.extra (tableHint c), .lit ['{'], .gap 0 (tableHint c), .kid 0, .gap 1 (tableHint c), .lit ['}']] := by
                  cases tag <;> simp [Tag.isTable] at htab hne'
                  cases hfr
                  rfl
                subst hfr'
                generalize hgo : gapsOf (placeAll (y :: ys)) = gs
                cases hfd with
                | @t _ u _ _ e1 hfd =>
                  cases hfd with
                  | @n _ x _ _ hd hfd =>
                    cases hfd with
                    | @t _ v _ _ e2 hfd =>
                      cases hfd
                      obtain ⟨tag2, ys2, rfl⟩ := strip_derives hd
                      have hki : kidItems c [.tok u, .node tag2 ys2, .tok v] = [(placeC (.node tag2 ys2)).items c] := by
                        simp [kidItems, placeAll, placeC, Part.node?, Node.itemsAll, Part.items, List.filterMap_cons]
                      rw [hki]
                      simp only [List.flatMap_cons, List.flatMap_nil, slotItems, List.getElem?_cons_zero, Option.getD_some, Cst.yields,
                        Cst.yield, List.append_nil, List.cons_append, List.nil_append, List.append_assoc]
                      have hend : ∀ p g, Spaces c (some p) [] (.gap g (tableHint c) :: .lit ['}'] ['}'] :: is) (v :: rest) := fun p g =>
                        close_spaces e2 (hfl hfi v v.tok (by
                          simp only [Cst.yields, Cst.yield, List.append_nil, List.singleton_append]
                          rw [← List.cons_append, List.getLast?_append]
                          rfl) (.refl _))
                      refine ⟨⟨(hh u rfl).short, fun h => h⟩, ?_⟩
                      show Spaces c pw (H ++ tableHint c) (.lit ['{'] ['{'] :: _) (u :: _)
                      intro t' hnew ho
                      have ht' := akin_self (hnew.akin (fun h => by rw [e1] at h; cases h) ho) (by simp [e1])
                      rw [ht', e1]
                      have hhu := hh u rfl
                      rw [e1] at hhu
                      refine ⟨open_ok hhu, ⟨.inl rfl, short_of (.inl rfl), fun h => h⟩, ?_⟩
                      refine hg (.node tag2 ys2) (by simp) (some .openCurly) ([] ++ tableHint c) _ _ (fun t _ => open_in _) ?_
                      unfold SpCont
                      split
                      · intro p; exact hend p _
                      · intro l l' _ _; exact hend l' _
              · have hfr' : fr = [.lit ['{'], .gap 0 (tableHint c), .lit ['}']] := by
                  cases hfr
                  rfl
                subst hfr'
                generalize hgo : gapsOf (placeAll (y :: ys)) = gs
                cases hfd with
                | @t _ u _ _ e1 hfd =>
                  cases hfd with
                  | @t _ v _ _ e2 hfd =>
                    cases hfd
                    simp only [List.flatMap_cons, List.flatMap_nil, slotItems, Cst.yields,
                      Cst.yield, List.append_nil, List.cons_append, List.nil_append]
                    refine spaces_lit (fun h => by rw [e1] at h; cases h) (hh u rfl) fun l' _ => ?_
                    exact close_spaces e2 (hfl hfi v v.tok (by simp [Cst.yields, Cst.yield]) (.refl _))
            · next htab =>
              have hfr0 : frame Config.default tag = some fr := by
                rw [← hfr]
                cases tag <;> first | rfl | (simp [Tag.isTable] at htab)
              rw [hfr0] at hck
              refine slots_spaces (K := spaceN) (fun p t H h => spaceN_any h _) fr hck hfd hg rfl ?_ (hfl hfi)
                (fun e => by cases e)
              intro t ht
              refine hh t ?_
              obtain ⟨u, us, e1, _⟩ := matches_first hm hne
              rw [stripAll_yields] at e1
              generalize Cst.yields (y :: ys) = l at ht e1 ⊢
              cases l with
              | nil => cases e1
              | cons => exact ht
  · cases xs with
    | nil => simp [stripAll] at e
    | cons y ys =>
      simp only [stripAll, Cst.node.injEq, List.cons.injEq] at e
      obtain ⟨rfl, e1, e2⟩ := e
      cases stripAll_nil e2
      obtain ⟨u, rfl, e3⟩ := strip_tok e1
      obtain ⟨hs, hsep, hpl, hch⟩ := leafTag_text hl
      have hfi : tag.isFields = false := by
        cases tag <;> simp [Tag.leafText] at hs <;> rfl
      have hit : (buildNode tag (placeAll [.tok u])).items c =
          [.lit (spell t) (((annotateTag c none tag []).leafText).getD (spell t))] := by
        unfold buildNode
        simp only [hsep, hpl, Node.items, itemsOf, hs, Bool.false_eq_true, if_false]
      show Spaces c pw H ((buildNode tag (placeAll [.tok u])).items c ++ is) (u :: rest)
      rw [hit]
      refine spaces_lit (fun hf => ?_) (hh u rfl) fun l' hl => ?_
      · exfalso
        rw [e3] at hf
        rcases isFieldSep_cases hf with e | e <;> rw [e] at hl <;> cases hl
      · unfold SpCont at hC
        rw [if_neg (by simp [Cst.isFl, hfi])] at hC
        exact hC u l' rfl hl

mutual
theorem place_spaces (c : Config) : ∀ (x : Cst TokL), ((∃ t, strip x = .tok t) ∨ ∃ n, Derives n (strip x)) → SpGood c x
  | .tok t, _ => spGood_tok t
  | .node tag xs, h => by
    rcases h with ⟨t, h⟩ | ⟨n, h⟩
    · simp [strip] at h
    · refine node_spaces h (place_spacess c xs ?_)
      rcases derives_inv h with ⟨a, tag', ss, cs, e, hp, hm⟩ | ⟨a, tag', t, e, hl⟩
      · simp only [strip, Cst.node.injEq] at e
        rw [e.2]
        exact matches_all hm
      · simp only [strip, Cst.node.injEq] at e
        rw [e.2]
        intro y hy
        exact .inl ⟨t, by simpa using hy⟩
theorem place_spacess (c : Config) : ∀ (xs : List (Cst TokL)),
    (∀ y ∈ stripAll xs, (∃ t, y = .tok t) ∨ ∃ n, Derives n y) → ∀ x ∈ xs, SpGood c x
  | [], _, x, h => nomatch h
  | y :: ys, hy, x, h => by
    simp only [stripAll] at hy
    rcases List.mem_cons.mp h with e | h
    · rw [e]
      exact place_spaces c y (hy _ List.mem_cons_self)
    · exact place_spacess c ys (fun z hz => hy z (List.mem_cons_of_mem _ hz)) x h
end

/-! ### Chunks -/

theorem attach_spaces (c : Config) {n : NT} {x : C} (h : Derives n x) {ps : List TokL} {rest : List Token}
    (hp : ps.map (·.tok) = x.yield ++ rest) : SpGood c (attach x ps).1 :=
  place_spaces c _ (.inr ⟨n, by rw [(attach_ok x ps rest hp).1]; exact h⟩)

/-- The hints of a parsed source are as they should be. -/
theorem parseLua_spaces (c : Config) {src : Str} {tree : Node} (h : parseLua src = some tree)
    {toks : List TokL} {e : TokL} (hlex : lexLua src = some (toks ++ [e])) :
    Spaces c none [] (tree.items c) (toks ++ [e]) := by
  unfold parseLua at h
  simp only [Option.bind_eq_bind, Option.bind_eq_some_iff, Option.some.injEq, Prod.exists] at h
  obtain ⟨toks', hlex', sb, b, hc, rfl⟩ := h
  rw [hlex] at hlex'
  cases hlex'
  obtain ⟨h1, h2, h3⟩ := parseChunk_sound hc
  have hsb : ∀ x, sb = some x → Derives .sheBangLine x := by
    intro x hx
    obtain ⟨s, rfl⟩ := h1 x hx
    exact .leaf rfl
  generalize toks ++ [e] = us at h3
  cases sb with
  | none =>
    cases b with
    | none => simp [placeChunk, Node.items, itemsOf, Tag.leafText, frame, Tag.template, Fm.slots, El.slots, slotItems,
        Node.itemsAll, Tag.seps, Tag.isPlainList, plainIs0, Spaces, short_of]
    | some x =>
      simp only [Option.toList_none, Option.toList_some, List.nil_append, Cst.yields, List.append_nil] at h3
      have hg := attach_spaces c (h2 _ rfl) h3
      obtain ⟨_, k2, k3, k4, k5⟩ := attach_good c (by decide) (h2 _ rfl) h3
      have := hg none [] [.gap ⟨(placeNode (attach x us).1).span.r, src.length⟩ []] (attach x us).2
        (fun _ _ => rfl) (by
          unfold SpCont
          rw [if_neg (by simp [k5])]
          intro l l' hl _
          exact ⟨⟨.inl rfl, short_of (.inl rfl), short_of (.inl rfl)⟩, rfl⟩)
      rw [← k2, k4] at this
      exact ⟨⟨.inl rfl, short_of (.inl rfl), short_of (.inl rfl)⟩, this⟩
  | some s =>
    have hs := hsb s rfl
    cases b with
    | none =>
      simp only [Option.toList_none, Option.toList_some, List.append_nil, Cst.yields] at h3
      have hg := attach_spaces c hs h3
      obtain ⟨_, k2, k3, k4, k5⟩ := attach_good c (by decide) hs h3
      have := hg none [] [.gap ⟨(placeNode (attach s us).1).span.r, src.length⟩ []] (attach s us).2
        (fun _ _ => rfl) (by
          unfold SpCont
          rw [if_neg (by simp [k5])]
          intro l l' hl _
          exact ⟨⟨.inl rfl, short_of (.inl rfl), short_of (.inl rfl)⟩, rfl⟩)
      rw [← k2, k4] at this
      exact ⟨⟨.inl rfl, short_of (.inl rfl), short_of (.inl rfl)⟩, this⟩
    | some x =>
      simp only [Option.toList_some, Cst.yields, List.append_nil, List.singleton_append, List.append_assoc] at h3
      have hg := attach_spaces c hs h3
      obtain ⟨_, k2, k3, k4, k5⟩ := attach_good c (by decide) hs h3
      have hg' := attach_spaces c (h2 _ rfl) k3
      obtain ⟨_, l2, l3, l4, l5⟩ := attach_good c (by decide) (h2 _ rfl) k3
      obtain ⟨w, hw⟩ := h1 s rfl
      have := hg none [] (.gap ⟨(placeNode (attach s us).1).span.r, (placeNode (attach x (attach s us).2).1).span.l⟩ [] ::
        ((placeC (attach x (attach s us).2).1).items c ++
        [.gap ⟨(placeNode (attach x (attach s us).2).1).span.r, src.length⟩ []])) (attach s us).2
        (fun _ _ => rfl) (by
          unfold SpCont
          rw [if_neg (by simp [k5])]
          intro l l' hl hal
          have hl' : l.tok = .sheBang w := by
            have e1 := (attach_ok s us _ h3).1
            have e2 := strip_yield (attach s us).1
            have e3 : s.yield = [.sheBang w] := by rw [hw]; rfl
            rw [e1, e3] at e2
            generalize (attach s us).1.yield = ys at e2 hl
            cases ys with
            | nil => cases hl
            | cons y ys =>
              cases ys with
              | nil => cases hl; simpa using e2.symm
              | cons => simp at e2
          rw [akin_self hal (by simp [hl']), hl']
          have h5 := hg' (some (.sheBang w)) ([] ++ []) [.gap ⟨(placeNode (attach x (attach s us).2).1).span.r, src.length⟩ []]
            (attach x (attach s us).2).2 (fun t ht => by
              have : t.tok ≠ .closeCurly := by
                obtain ⟨u, _, e1, e2⟩ := first_tok (x := (attach x (attach s us).2).1) (n := .block)
                  (by rw [(attach_ok x _ _ k3).1]; exact h2 _ rfl)
                rw [e1] at ht
                cases ht
                intro e
                rw [e] at e2
                revert e2
                decide +kernel
              simp [SpaceIn, spaceB, this, isSheBang]) (by
              unfold SpCont
              rw [if_neg (by simp [l5])]
              intro l l' hl _
              exact ⟨⟨.inl rfl, short_of (.inl rfl), short_of (.inl rfl)⟩, rfl⟩)
          rw [← l2] at h5
          exact ⟨⟨.inl rfl, short_of (.inl rfl), short_of (.inl rfl)⟩, h5⟩)
      rw [← k2, k4, l4] at this
      exact ⟨⟨.inl rfl, short_of (.inl rfl), short_of (.inl rfl)⟩, this⟩

end Luafmt
