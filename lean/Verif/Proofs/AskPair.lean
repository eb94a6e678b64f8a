import Verif.Proofs.AskMarks

/-
The places of a program where a line is asked for, in the tree of the source and in that of the output.
-/
namespace Luafmt
open Spec

variable {c : Config}

/-- Nothing is asked for in `t` that is not asked for in `t'`. -/
structure AskTag (c : Config) (t t' : Tag) : Prop where
  place : ∀ g, PlaceAsks c t g → PlaceAsks c t' g
  items : ∀ b i, ItemAsks c t b i → ItemAsks c t' b i
  item : ∀ s b, ItemAsks c s b t → ItemAsks c s b t'
  at' : ∀ i, itemPlace t' i = itemPlace t i

theorem AskTag.refl (t : Tag) : AskTag c t t := ⟨fun _ h => h, fun _ _ h => h, fun _ _ h => h, fun _ => rfl⟩

theorem itemAsks_seps {t s : Tag} (h : t.seps.isSome = true) {b : Bool} {x y : List Str} (hs : ItemAsks c s b (t.setSeps x)) :
    ItemAsks c s b (t.setSeps y) := by
  cases t <;> simp only [Tag.seps, Option.isSome_none, Bool.false_eq_true] at h <;> cases s <;>
    first | exact hs | (simp [ItemAsks, Tag.setSeps] at hs ⊢; exact hs) | (simp [ItemAsks, Tag.setSeps] at hs)

theorem askTag_seps {t : Tag} (h : t.seps.isSome = true) (x y : List Str) : AskTag c (t.setSeps x) (t.setSeps y) := by
  refine ⟨fun g hp => ?_, fun b i hi => ?_, fun s b hs => itemAsks_seps h hs, fun i => ?_⟩ <;>
    cases t <;> simp only [Tag.seps, Option.isSome_none, Bool.false_eq_true] at h <;>
    first | exact hp | exact hi | rfl | (simp [PlaceAsks, Tag.setSeps, lineBreaks] at hp)

theorem askTag_str (s s' : Str) : AskTag c (.charStringLiteral s) (.normalStringLiteral s') := by
  refine ⟨fun g hp => ?_, fun b i hi => hi.elim, fun t b h => ?_, fun i => rfl⟩
  · simp [PlaceAsks, lineBreaks] at hp
  · cases t <;> first | exact h | (simp [ItemAsks] at h ⊢; done) | (simp [ItemAsks] at h ⊢; exact h)

theorem placeAsks_list {t : Tag} (h : t.seps.isSome = true ∨ t.isPlainList = true) {g : Nat} : ¬ PlaceAsks c t g := by
  cases t <;> simp [Tag.seps, Tag.isPlainList] at h <;> simp [PlaceAsks, lineBreaks]

theorem itemAsks_list {t i : Tag} {b : Bool} (h : ItemAsks c t b i) : t.seps.isSome = true ∨ t.isPlainList = true := by
  cases t <;> first | exact h.elim | exact .inl rfl | exact .inr rfl

/-- Related places. -/
def PairAt (A : TokL → TokL → Prop) (p p' : Nat) : Prop := ∃ t t', A t t' ∧ p = t.l ∧ p' = t'.l

/-- Related nodes: where something is asked for in one of them, it is in the other one. -/
def AskPair (c : Config) (A : TokL → TokL → Prop) (n n' : Node) : Prop :=
  AskTag c n.tag n'.tag ∧ PairAt A n.span.l n'.span.l ∧ ∀ p, Asked c n p → ∃ p', PairAt A p p' ∧ Asked c n' p'

theorem inside_cases {tag : Tag} {span : Loc} {locs : List Loc} {kids : List Node} {m : Node}
    (h : Inside (.mk tag span locs kids) m) : m = .mk tag span locs kids ∨ ∃ n ∈ kids, Inside n m := by
  cases h with
  | refl => exact .inl rfl
  | kid h1 h2 => exact .inr ⟨_, h1, h2⟩

theorem Spec.Asked.cases {tag : Tag} {span : Loc} {locs : List Loc} {kids : List Node} {p : Nat}
    (h : Asked c (.mk tag span locs kids) p) :
    (∃ g loc, locs[g]? = some loc ∧ loc.r = p ∧ PlaceAsks c tag g) ∨
    (∃ (i : Nat) (item : Node) (loc : Loc), kids[i]? = some item ∧ locs[itemPlace tag i]? = some loc ∧ loc.r = p ∧
      ItemAsks c tag (i == 0) item.tag) ∨
    ∃ n ∈ kids, Asked c n p := by
  obtain ⟨tag', span', locs', kids', loc, hi, hp, h⟩ := h
  rcases inside_cases hi with e | ⟨n, hn, hi⟩
  · cases e
    rcases h with ⟨g, h1, h2⟩ | ⟨i, item, h1, h2, h3⟩
    · exact .inl ⟨g, loc, h1, hp, h2⟩
    · exact .inr (.inl ⟨i, item, loc, h1, h2, hp, h3⟩)
  · exact .inr (.inr ⟨n, hn, tag', span', locs', kids', loc, hi, hp, h⟩)

theorem Spec.Asked.kid {tag : Tag} {span : Loc} {locs : List Loc} {kids : List Node} {p : Nat} {n : Node} (hn : n ∈ kids)
    (h : Asked c n p) : Asked c (.mk tag span locs kids) p := by
  obtain ⟨tag', span', locs', kids', loc, hi, h⟩ := h
  exact ⟨tag', span', locs', kids', loc, .kid hn hi, h⟩

theorem askPair_mk {A : TokL → TokL → Prop} {t t' : Tag} {span span' : Loc} {locs locs' : List Loc} {kids kids' : List Node}
    (ht : AskTag c t t') (hs : PairAt A span.l span'.l) (hk : NodePairs (AskPair c A) kids kids')
    (hl : ∀ g loc, PlaceAsks c t g → locs[g]? = some loc → ∃ loc', locs'[g]? = some loc' ∧ PairAt A loc.r loc'.r)
    (h : ∀ (j : Nat) m (loc : Loc), t.seps.isSome = true ∨ t.isPlainList = true → kids[j]? = some m → locs[itemPlace t j]? = some loc →
      loc.r = m.span.l)
    (h' : ∀ (j : Nat) m, t'.seps.isSome = true ∨ t'.isPlainList = true → kids'[j]? = some m →
      ∃ loc, locs'[itemPlace t' j]? = some loc ∧ loc.r = m.span.l) :
    AskPair c A (.mk t span locs kids) (.mk t' span' locs' kids') := by
  refine ⟨ht, hs, fun p hp => ?_⟩
  rcases hp.cases with ⟨g, loc, h1, rfl, h2⟩ | ⟨i, item, loc, h1, h2, rfl, h3⟩ | ⟨n, hn, hp⟩
  · obtain ⟨loc', h3, h4⟩ := hl g loc h2 h1
    exact ⟨loc'.r, h4, _, _, _, _, loc', .refl, rfl, .inl ⟨g, h3, ht.place g h2⟩⟩
  · obtain ⟨item', h4, h5⟩ := hk.get' h1
    have h6 := h5.1.item _ _ (ht.items _ _ h3)
    obtain ⟨loc', h7, h8⟩ := h' i item' (itemAsks_list h6) h4
    refine ⟨loc'.r, ?_, _, _, _, _, loc', .refl, rfl, .inr ⟨i, item', h4, h7, h6⟩⟩
    rw [h i item loc (itemAsks_list h3) h1 h2, h8]
    exact h5.2.1
  · obtain ⟨i, hi⟩ := List.getElem?_of_mem hn
    obtain ⟨n', h1, h2⟩ := hk.get' hi
    obtain ⟨p', h3, h4⟩ := h2.2.2 p hp
    exact ⟨p', h3, h4.kid (List.mem_of_getElem? h1)⟩

theorem corrAll_get' {A : TokL → TokL → Prop} : ∀ {xs xs' : List (Cst TokL)}, CorrAll A xs xs' → ∀ {j : Nat} {x : Cst TokL},
    xs[j]? = some x → ∃ x', xs'[j]? = some x' ∧ Corr A x x'
  | _, _, .nil, j, x', h => by cases h
  | _, _, .cons hc hs, 0, x', h => by cases h; exact ⟨_, rfl, hc⟩
  | _, _, .cons hc hs, j + 1, x', h => corrAll_get' hs (j := j) (by simpa using h)

theorem corr_start {A : TokL → TokL → Prop} {x x' : Cst TokL} (hr : Real x) (h : Corr A x x') :
    PairAt A (placeC x).span.l (placeC x').span.l := by
  obtain ⟨t, t', h1, h2, h3⟩ := corr_first _ x x' (Nat.le_refl _) hr h
  exact ⟨t, t', h1, h2, h3⟩

/-- The places between related parts. -/
theorem gaps_ask {A : TokL → TokL → Prop} {xs xs' : List (Cst TokL)} (hr : ∀ y ∈ xs, Real y)
    (h : CorrAll A xs xs') {g : Nat} {loc : Loc} (hg : (gapsOf (placeAll xs))[g]? = some loc) :
    ∃ loc', (gapsOf (placeAll xs'))[g]? = some loc' ∧ PairAt A loc.r loc'.r := by
  have hlt : g < (gapsOf (placeAll xs)).length := (List.getElem?_eq_some_iff.1 hg).1
  rw [gapsOf_length, placeAll_length] at hlt
  have hx : xs[g + 1]? = some (xs[g + 1]'(by omega)) := List.getElem?_eq_getElem _
  generalize xs[g + 1]'(by omega) = x at hx
  obtain ⟨x', hx', hc⟩ := corrAll_get' h hx
  obtain ⟨l', e1, e2⟩ := gapsOf_get (placeAll_get hx)
  obtain ⟨l, e3, e4⟩ := gapsOf_get (placeAll_get hx')
  rw [hg] at e1
  cases e1
  refine ⟨l, e3, ?_⟩
  rw [e2, e4]
  exact corr_start (hr _ (List.mem_of_getElem? hx)) hc

theorem ask_kids {A : TokL → TokL → Prop} {x x' : Cst TokL} {xs xs' : List (Cst TokL)} (h : Corr A x x')
    (hx : ∀ n, placeC x = .node n → ∃ n', placeC x' = .node n' ∧ AskPair c A n n')
    (hs : NodePairs (AskPair c A) (kidsOf xs) (kidsOf xs')) :
    NodePairs (AskPair c A) (kidsOf (x :: xs)) (kidsOf (x' :: xs')) := by
  cases h with
  | tok _ => exact hs
  | node _ => obtain ⟨n', e, h⟩ := hx _ rfl; cases e; exact .cons h hs
  | str _ => obtain ⟨n', e, h⟩ := hx _ rfl; cases e; exact .cons h hs
  | fields _ _ => obtain ⟨n', e, h⟩ := hx _ rfl; cases e; exact .cons h hs

theorem places_eq {t : Tag} {locs : List Loc} {kids : List Node}
    (h : t.seps.isSome = true ∨ t.isPlainList = true → ∀ (j : Nat) m, kids[j]? = some m →
      ∃ loc, locs[itemPlace t j]? = some loc ∧ loc.r = m.span.l) (j : Nat) (m : Node) (loc : Loc)
    (hL : t.seps.isSome = true ∨ t.isPlainList = true) (hm : kids[j]? = some m) (hl : locs[itemPlace t j]? = some loc) :
    loc.r = m.span.l := by
  obtain ⟨l, h1, h2⟩ := h hL j m hm
  rw [hl] at h1
  cases h1
  exact h2

mutual
theorem corr_ask {A : TokL → TokL → Prop} : ∀ (x x' : Cst TokL), Real x → Real x' → Corr A x x' →
    ∀ n, placeC x = .node n → ∃ n', placeC x' = .node n' ∧ AskPair c A n n'
  | .tok t, x', _, _, _, n, e => by cases e
  | .node tag xs, x', hr, hr', hc, n, e => by
    have hk := (real_kids hr).2
    have hst := corr_start hr hc
    cases e
    cases hc with
    | str ha => exact ⟨_, rfl, askPair_mk (askTag_str _ _) hst .nil (fun g loc _ hl => by cases hl) (fun j m loc _ hj => by cases hj) (fun j m _ hj => by cases hj)⟩
    | @node _ _ xs' hc =>
      refine ⟨_, rfl, ?_⟩
      have hks := corrAll_ask xs xs' hk (real_kids hr').2 hc
      obtain ⟨_, hd⟩ := real_derives hr
      obtain ⟨_, hd'⟩ := real_derives hr'
      have hp := buildNode_places hd
      have hp' := buildNode_places hd'
      simp only [placeC, Part.span] at hst
      obtain ⟨span, _, ⟨pre, sps, hs, e, _⟩ | ⟨pre, hs, hpl, e, _⟩ | ⟨hs, hpl, e⟩⟩ := buildNode_eq tag xs <;>
      obtain ⟨span', _, ⟨pre', sps', hs', e', _⟩ | ⟨pre', hs', hpl', e', _⟩ | ⟨hs', hpl', e'⟩⟩ := buildNode_eq tag xs'
      all_goals first
        | (rw [hs] at hs'; cases hs'; done)
        | (rw [hpl] at hpl'; cases hpl'; done)
        | skip
      all_goals
        rw [e] at hp hst ⊢
        rw [e'] at hp' hst ⊢
      · have hso : tag.seps.isSome = true := by rw [hs]; rfl
        exact askPair_mk (askTag_seps hso _ _) hst hks
          (fun g loc hb => absurd hb (placeAsks_list (.inl (by rw [setSeps_seps hso]; rfl))))
          (places_eq hp) (fun j m hL hm => hp' hL j m hm)
      · exact askPair_mk (.refl _) hst hks (fun g loc hb => absurd hb (placeAsks_list (.inr hpl)))
          (places_eq hp) (fun j m hL hm => hp' hL j m hm)
      · exact askPair_mk (.refl _) hst hks (fun g loc _ hg => gaps_ask hk hc hg) (places_eq hp) (fun j m hL hm => hp' hL j m hm)
    | @fields _ _ xs' hf hc =>
      refine ⟨_, rfl, ?_⟩
      have hks := corrFields_ask xs xs' hk (real_kids hr').2 hc
      obtain ⟨_, hd⟩ := real_derives hr
      obtain ⟨_, hd'⟩ := real_derives hr'
      have hp := buildNode_places hd
      have hp' := buildNode_places hd'
      simp only [placeC, Part.span] at hst
      have hso : tag.seps.isSome = true := by cases tag <;> simp [Tag.isFields] at hf <;> rfl
      obtain ⟨span, _, ⟨pre, sps, hs, e, _⟩ | ⟨pre, hs, hpl, e, _⟩ | ⟨hs, hpl, e⟩⟩ := buildNode_eq tag xs <;>
      obtain ⟨span', _, ⟨pre', sps', hs', e', _⟩ | ⟨pre', hs', hpl', e', _⟩ | ⟨hs', hpl', e'⟩⟩ := buildNode_eq tag xs'
      all_goals first
        | (rw [hs] at hso; cases hso; done)
        | (rw [hs'] at hso; cases hso; done)
        | skip
      rw [e] at hp hst ⊢
      rw [e'] at hp' hst ⊢
      exact askPair_mk (askTag_seps hso _ _) hst hks
        (fun g loc hb => absurd hb (placeAsks_list (.inl (by rw [setSeps_seps hso]; rfl))))
        (places_eq hp) (fun j m hL hm => hp' hL j m hm)
theorem corrAll_ask {A : TokL → TokL → Prop} : ∀ (xs xs' : List (Cst TokL)), (∀ y ∈ xs, Real y) →
    (∀ y ∈ xs', Real y) → CorrAll A xs xs' → NodePairs (AskPair c A) (kidsOf xs) (kidsOf xs')
  | [], _, _, _, h => by cases h; exact .nil
  | x :: xs, _, hr, hr', h => by
    cases h with
    | cons hx hs =>
      exact ask_kids hx (corr_ask x _ (hr _ List.mem_cons_self) (hr' _ List.mem_cons_self) hx)
        (corrAll_ask xs _ (fun y hy => hr y (List.mem_cons_of_mem _ hy)) (fun y hy => hr' y (List.mem_cons_of_mem _ hy)) hs)
theorem corrFields_ask {A : TokL → TokL → Prop} : ∀ (xs xs' : List (Cst TokL)), (∀ y ∈ xs, Real y) →
    (∀ y ∈ xs', Real y) → CorrFields A xs xs' → NodePairs (AskPair c A) (kidsOf xs) (kidsOf xs')
  | [], _, _, _, h => by cases h
  | [x], _, hr, hr', h => by
    generalize e : [x] = l at h
    cases h with
    | @last y y' ts ts' hx =>
      cases ts with
      | none =>
        cases e
        refine ask_kids hx (corr_ask x _ (hr _ List.mem_cons_self) (hr' _ List.mem_cons_self) hx) ?_
        cases ts' <;> exact .nil
      | some t => cases e
    | cons _ _ _ => cases e
  | x :: y :: xs, _, hr, hr', h => by
    generalize e : x :: y :: xs = l at h
    cases h with
    | @last z z' ts ts' hx =>
      cases ts with
      | none => cases e
      | some t =>
        cases e
        refine ask_kids hx (corr_ask x _ (hr _ List.mem_cons_self) (hr' _ List.mem_cons_self) hx) ?_
        cases ts' <;> exact .nil
    | @cons z z' t t' zs zs' hx ha hs =>
      cases e
      refine ask_kids hx (corr_ask x _ (hr _ List.mem_cons_self) (hr' _ List.mem_cons_self) hx) ?_
      exact corrFields_ask xs zs' (fun y hy => hr y (List.mem_cons_of_mem _ (List.mem_cons_of_mem _ hy)))
        (fun y hy => hr' y (List.mem_cons_of_mem _ (List.mem_cons_of_mem _ hy))) hs
end

theorem written_ask {A : TokL → TokL → Prop} {x x' : Cst TokL} (h : Written c A x x') : AskPair c A (placeNode x) (placeNode x') := by
  obtain ⟨n, h1, h2⟩ := h.derives
  obtain ⟨n', e, h3⟩ := corr_ask (c := c) x x' (.inr ⟨n, h1⟩) (.inr ⟨n, h2⟩) h.corr _ (placeC_node h1)
  rw [placeC_node h2] at e
  cases e
  exact h3

theorem chunk_asks_nothing {tag : Tag} (ht : tag = .chunk ∨ tag = .sheBangChunk ∨ tag = .statementList) {span : Loc} {locs : List Loc} {kids : List Node} {p : Nat}
    (hk : tag = .statementList → kids = []) (h : Asked c (.mk tag span locs kids) p) : ∃ n ∈ kids, Asked c n p := by
  rcases h.cases with ⟨g, loc, h1, _, h2⟩ | ⟨i, item, loc, h1, h2, _, h3⟩ | h
  · rcases ht with rfl | rfl | rfl <;> simp [PlaceAsks, lineBreaks] at h2
  · rcases ht with rfl | rfl | rfl
    · exact h3.elim
    · exact h3.elim
    · rw [hk rfl] at h1; cases h1
  · exact h

/-- What is asked for in the source is asked for in the output. -/
theorem chunk_ask {A : TokL → TokL → Prop} {e e' : Nat} {tree tree' : Node} (h : ChunkPair (Written c A) e e' tree tree') {p : Nat}
    (hp : Asked c tree p) : ∃ p', PairAt A p p' ∧ Asked c tree' p' := by
  cases h with
  | empty =>
    obtain ⟨n, hn, hp⟩ := chunk_asks_nothing (.inl rfl) (fun h => by cases h) hp
    cases List.mem_singleton.1 hn
    obtain ⟨n, hn, _⟩ := chunk_asks_nothing (.inr (.inr rfl)) (fun _ => rfl) hp
    cases hn
  | one h =>
    obtain ⟨n, hn, hp⟩ := chunk_asks_nothing (.inl rfl) (fun h => by cases h) hp
    cases List.mem_singleton.1 hn
    obtain ⟨p', h1, h2⟩ := (written_ask h).2.2 p hp
    exact ⟨p', h1, h2.kid List.mem_cons_self⟩
  | two h1 h2 =>
    obtain ⟨n, hn, hp⟩ := chunk_asks_nothing (.inr (.inl rfl)) (fun h => by cases h) hp
    rcases List.mem_cons.1 hn with rfl | hn
    · obtain ⟨p', h1, h2⟩ := (written_ask h1).2.2 p hp
      exact ⟨p', h1, h2.kid List.mem_cons_self⟩
    · cases List.mem_singleton.1 hn
      obtain ⟨p', h1, h2⟩ := (written_ask h2).2.2 p hp
      exact ⟨p', h1, h2.kid (List.mem_cons_of_mem _ List.mem_cons_self)⟩

end Luafmt
