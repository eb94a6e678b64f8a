import Verif.Proofs.Calm

/-
From the marks of the source to the lines of the output.
-/
namespace Luafmt
open Spec

/-- A tree with tokens: of a token or of a nonterminal. -/
def Real (x : Cst TokL) : Prop := (∃ t, strip x = .tok t) ∨ ∃ n, Derives n (strip x)

theorem real_kids {tag : Tag} {xs : List (Cst TokL)} (h : Real (.node tag xs)) :
    (∃ y ys, xs = y :: ys) ∧ ∀ y ∈ xs, Real y := by
  rcases h with ⟨t, h⟩ | ⟨nt, h⟩
  · simp [strip] at h
  · have hall : (∃ y ys, stripAll xs = y :: ys) ∧ ∀ y ∈ stripAll xs, (∃ t, y = .tok t) ∨ ∃ n, Derives n y := by
      rcases derives_inv h with ⟨a, tag', ss, cs, e, hp, hm⟩ | ⟨a, tag', t, e, hl⟩
      · simp only [strip, Cst.node.injEq] at e
        rw [e.2]
        refine ⟨?_, matches_all hm⟩
        have hne : ∀ p ∈ prods, p.2.2 ≠ [] := by decide +kernel
        cases hm with
        | nil => exact absurd rfl (hne _ hp)
        | t _ => exact ⟨_, _, rfl⟩
        | n _ _ => exact ⟨_, _, rfl⟩
        | listLast _ _ => exact ⟨_, _, rfl⟩
        | listCons _ _ => exact ⟨_, _, rfl⟩
        | sepLast _ _ => exact ⟨_, _, rfl⟩
        | sepCons _ _ => exact ⟨_, _, rfl⟩
        | sepEndLast _ _ => exact ⟨_, _, rfl⟩
        | sepEndTrail _ _ _ => exact ⟨_, _, rfl⟩
        | sepEndCons _ _ _ => exact ⟨_, _, rfl⟩
      · simp only [strip, Cst.node.injEq] at e
        rw [e.2]
        refine ⟨⟨_, _, rfl⟩, fun y hy => .inl ⟨t, List.mem_singleton.1 hy⟩⟩
    obtain ⟨⟨y, ys, e⟩, h2⟩ := hall
    obtain ⟨z, zs, rfl, _, _⟩ := stripAll_cons e
    exact ⟨⟨_, _, rfl⟩, fun y hy => h2 _ (mem_stripAll hy)⟩

theorem real_derives {tag : Tag} {xs : List (Cst TokL)} (h : Real (.node tag xs)) :
    ∃ n, Derives n (.node tag (stripAll xs)) := by
  rcases h with ⟨t, h⟩ | h
  · simp [strip] at h
  · exact h

/-- The first tokens of related trees are related. -/
theorem corr_first {A : TokL → TokL → Prop} : ∀ (k : Nat) (x x' : Cst TokL), sizeOf x ≤ k → Real x → Corr A x x' →
    ∃ t t', A t t' ∧ (placeC x).span.l = t.l ∧ (placeC x').span.l = t'.l := by
  intro k
  induction k with
  | zero =>
    intro x x' hx
    cases x <;> simp at hx
  | succ k ih =>
    intro x x' hx hr h
    cases h with
    | tok ha => exact ⟨_, _, ha, rfl, rfl⟩
    | @str s s' t t' ha => exact ⟨t, t', ha, by rw [placeC_first]; rfl, by rw [placeC_first]; rfl⟩
    | node hc =>
      obtain ⟨⟨y, ys, rfl⟩, hk⟩ := real_kids hr
      cases hc with
      | cons hy _ =>
        obtain ⟨t, t', h1, h2, h3⟩ := ih _ _ (by simp at hx; omega) (hk _ List.mem_cons_self) hy
        exact ⟨t, t', h1, by rw [placeC_first, h2], by rw [placeC_first, h3]⟩
    | fields _ hc =>
      obtain ⟨_, hk⟩ := real_kids hr
      cases hc with
      | last hy =>
        obtain ⟨t, t', h1, h2, h3⟩ := ih _ _ (by simp at hx; omega) (hk _ List.mem_cons_self) hy
        exact ⟨t, t', h1, by rw [placeC_first, h2], by rw [placeC_first, h3]⟩
      | cons hy _ _ =>
        obtain ⟨t, t', h1, h2, h3⟩ := ih _ _ (by simp at hx; omega) (hk _ List.mem_cons_self) hy
        exact ⟨t, t', h1, by rw [placeC_first, h2], by rw [placeC_first, h3]⟩

theorem indentText_eq (c : Config) (k : Nat) : indentText c k = indentation c k := by
  unfold indentText
  cases hs : c.str .indentationString with
  | none =>
    induction k with
    | zero => rfl
    | succ k ih => simp only [indentation, hs, Option.getD_none, List.nil_append]; exact ih
  | some s =>
    simp only [Int.toNat_natCast]
    induction k with
    | zero => rfl
    | succ k ih => simp only [indentation, hs, Option.getD_some, List.replicate_succ, List.flatten_cons, ih]

theorem marked_line {c : Config} {ms : List (Nat × Mk)} {out : Str} {x x' : Cst TokL} (hr : Real x)
    (h : Corr (Marked c ms out) x x') {k : Nat} (hk : InMarks ms (placeC x).span.l k) :
    LineStart c out (placeC x').span.l k := by
  obtain ⟨t, t', h1, h2, h3⟩ := corr_first _ x x' (Nat.le_refl _) hr h
  rw [h2] at hk
  rw [h3]
  rcases h1 _ hk with ⟨a, e⟩ | ⟨f0, ⟨a, e0⟩, e, e'⟩
  · exact ⟨a, .inl (by rw [e, indentText_eq])⟩
  · refine ⟨a, .inr ⟨?_, by rw [e, e0, indentText_eq]⟩⟩
    have hlen : t'.l ≤ out.length := by
      by_cases hle : t'.l ≤ out.length
      · exact hle
      · rw [List.take_of_length_le (i := t'.l) (by omega)] at e'
        have := congrArg List.length e'
        simp only [List.length_take, List.length_append, List.length_singleton] at this
        omega
    have h4 := congrArg (·[t'.l]?) e'
    have hl : (out.take t'.l).length = t'.l := by rw [List.length_take]; omega
    simp only [List.getElem?_append_right (l₁ := out.take t'.l) (i := t'.l) (by omega), hl, Nat.sub_self,
      List.getElem?_cons_zero, List.getElem?_take] at h4
    split at h4
    · exact h4
    · cases h4

/-- Text up to two positions with the same number of newlines before them. -/
theorem oneLine_of {s : Str} {l r k : Nat} (h1 : (s.take l).count '\n' = k) (h2 : (s.take r).count '\n' = k) :
    '\n' ∉ (s.take r).drop l := by
  by_cases hlr : l ≤ r
  · have e : s.take r = s.take l ++ (s.take r).drop l := by
      have := (List.take_append_drop l (s.take r)).symm
      rwa [List.take_take, Nat.min_eq_left hlr] at this
    rw [e, List.count_append, h1] at h2
    exact List.count_eq_zero.1 (by omega)
  · rw [List.drop_eq_nil_of_le (by rw [List.length_take]; omega)]
    simp

theorem last_tok_all : ∀ p ∈ prods, (foldGap p.2.1).isSome = true →
    (match p.2.2.getLast? with | some (.t _) => true | _ => false) = true := by decide +kernel

theorem overruled_fold {c : Config} {u : Bool} {t : Tag} (h : overruled c u t ≠ []) : (foldGap t).isSome = true := by
  cases t <;> first | rfl | (exact absurd (by simp [overruled]) h)

theorem fits_last {ss : List Sym} {xs : List (Cst TokL)} (h : FitsD ss xs)
    (hs : (match ss.getLast? with | some (.t _) => true | _ => false) = true) : ∃ t, xs.getLast? = some (.tok t) := by
  induction h with
  | nil => cases hs
  | t e h ih =>
    cases h with
    | nil => exact ⟨_, rfl⟩
    | t _ _ => rw [List.getLast?_cons_cons] at hs ⊢; exact ih hs
    | n _ _ => rw [List.getLast?_cons_cons] at hs ⊢; exact ih hs
  | n hd h ih =>
    cases h with
    | nil => cases hs
    | t _ _ => rw [List.getLast?_cons_cons] at hs ⊢; exact ih hs
    | n _ _ => rw [List.getLast?_cons_cons] at hs ⊢; exact ih hs

theorem corrAll_last {A : TokL → TokL → Prop} : ∀ {xs xs' : List (Cst TokL)}, CorrAll A xs xs' → ∀ {t : TokL},
    xs.getLast? = some (.tok t) → ∃ t', xs'.getLast? = some (.tok t') ∧ A t t'
  | _, _, .nil, t, h => by cases h
  | _, _, .cons hc .nil, t, h => by
    cases h
    cases hc with
    | tok ha => exact ⟨_, rfl, ha⟩
  | _, _, .cons hc (.cons hc' hs), t, h => by
    rw [List.getLast?_cons_cons] at h ⊢
    exact corrAll_last (.cons hc' hs) h

theorem placeAll_last : ∀ {xs : List (Cst TokL)} {x : Cst TokL}, xs.getLast? = some x →
    (placeAll xs).getLast? = some (placeC x)
  | [], _, h => by cases h
  | [y], _, h => by cases h; rfl
  | y :: z :: xs, _, h => by
    rw [List.getLast?_cons_cons] at h
    simp only [placeAll]
    rw [List.getLast?_cons_cons]
    exact placeAll_last (xs := z :: xs) h

theorem gapsOf_last : ∀ {ps : List Part} {loc : Loc}, (gapsOf ps).getLast? = some loc → ∃ p, ps.getLast? = some p ∧
    loc.r = p.span.l
  | [], _, h => by cases h
  | [_], _, h => by cases h
  | [_, q], _, h => by cases h; exact ⟨_, rfl, rfl⟩
  | _ :: q :: p :: ps, _, h => by
    rw [List.getLast?_cons_cons]
    refine gapsOf_last (ps := q :: p :: ps) ?_
    simp only [gapsOf] at h ⊢
    rwa [List.getLast?_cons_cons] at h

theorem buildNode_last {tag : Tag} {xs : List (Cst TokL)} {x : Cst TokL} (h : xs.getLast? = some x) :
    (buildNode tag (placeAll xs)).span.r = (placeC x).span.r := by
  have e := placeAll_last h
  unfold buildNode
  simp only [e]
  split
  · rfl
  · split <;> rfl

/-- What is marked as on one line in the source is on one line in the output. -/
theorem fold_line {c : Config} {ms : List (Nat × Mk)} {out : Str} {tag : Tag} {xs xs' : List (Cst TokL)}
    (hr : Real (.node tag xs)) (h : CorrAll (Marked c ms out) xs xs') (ho : ∃ u, overruled c u tag ≠ [])
    (hs : tag.seps = none) (hpl : tag.isPlainList = false) (hq : QM c ms (buildNode tag (placeAll xs))) :
    OnOneLine c out (buildNode tag (placeAll xs')).span := by
  obtain ⟨k, w, m, loc, h1, h2, h3, h4, h5⟩ := hq
  have hfg := ho.elim fun _ h => overruled_fold h
  obtain ⟨nt, hd⟩ := real_derives hr
  rcases derives_inv hd with ⟨a, tag', ss, cs, e, hp, hm⟩ | ⟨a, tag', t, e, hl⟩
  · cases e
    have hr1 := readyProd_all _ hp
    simp only [readyProd, Bool.and_eq_true] at hr1
    have hr1 := hr1.1.1
    simp only [hs, hpl, Option.isSome_none, Bool.false_or] at hr1
    rw [Bool.and_eq_true] at hr1
    obtain ⟨t, ht⟩ := fits_last (fitsD_of_matches hr1.2 hm) (last_tok_all _ hp hfg)
    obtain ⟨t', ht', hA⟩ := corrAll_last h ht
    have hc : Corr (Marked c ms out) (.node tag xs) (.node tag xs') := .node h
    obtain ⟨u, u', hB, e1, e2⟩ := corr_first _ _ _ (Nat.le_refl _) hr hc
    obtain ⟨span, _, ⟨pre, sps, hs', e, _⟩ | ⟨pre, hs', hpl', e, _⟩ | ⟨hs', hpl', e⟩⟩ := buildNode_eq tag xs
    · rw [hs] at hs'; cases hs'
    · rw [hpl] at hpl'; cases hpl'
    · have hl : (buildNode tag (placeAll xs)).locs = gapsOf (placeAll xs) := by rw [e]; rfl
      rw [hl] at h2
      obtain ⟨p, hp1, hp2⟩ := gapsOf_last h2
      rw [placeAll_last ht] at hp1
      cases hp1
      rw [hp2] at h3
      have b1 : (out.take u'.l).count '\n' = k := hB (.beg k) (by rw [← e1]; exact h1)
      obtain ⟨b2, b3, _⟩ := hA _ h3
      have e3 : (buildNode tag (placeAll xs')).span.l = u'.l := e2
      have e4 : (buildNode tag (placeAll xs')).span.r = t'.r := buildNode_last ht'
      refine ⟨?_, m, h4, ?_⟩
      · rw [e3, e4]; exact oneLine_of b1 b2
      · rw [e4]
        have b4 : ((out.take t'.r).reverse.takeWhile (· != '\n')).length = w := b3
        omega
  · rw [Cst.node.injEq] at e
    obtain ⟨rfl, _⟩ := e
    rw [(leaf_fold (t := tag) (by rw [(leafTag_text hl).1]; rfl)).1] at hfg
    cases hfg

/-! ### The tags -/

/-- Tags that the specification of lines does not tell apart. -/
def LikeTag (t t' : Tag) : Prop :=
  lineBreaks t = lineBreaks t' ∧ bodies t = bodies t' ∧ ((∃ a b, t' = .tableConstructor a b) ↔ ∃ a b, t = .tableConstructor a b) ∧
  (∀ op, t' = .binaryOp op ↔ t = .binaryOp op) ∧ ((∃ s, t' = .expList s) ↔ ∃ s, t = .expList s) ∧
  (t' = .varSuffixList ↔ t = .varSuffixList) ∧ (t' = .statsRetStat ↔ t = .statsRetStat) ∧
  (∀ i, itemPlace t' i = itemPlace t i) ∧ (∀ c z b n, ItemBreaks c z t' b n ↔ ItemBreaks c z t b n) ∧
  (t' = .tableMember ↔ t = .tableMember) ∧ (t' = .fnMethodCall ↔ t = .fnMethodCall) ∧ listKids t = listKids t' ∧
  (∀ c u, overruled c u t = overruled c u t') ∧ (∀ i, nests t i = nests t' i) ∧ (t' = .fieldSequential ↔ t = .fieldSequential)

theorem LikeTag.refl (t : Tag) : LikeTag t t :=
  ⟨rfl, rfl, .rfl, fun _ => .rfl, .rfl, .rfl, .rfl, fun _ => rfl, fun _ _ _ _ => .rfl, .rfl, .rfl, rfl, fun _ _ => rfl, fun _ => rfl, .rfl⟩

theorem likeTag_setSeps (t : Tag) (s s' : List Str) : LikeTag (t.setSeps s) (t.setSeps s') := by
  cases t <;> simp [LikeTag, Tag.setSeps, lineBreaks, bodies, itemPlace, ItemBreaks, listKids, overruled, nests]

theorem likeTag_str (s s' : Str) : LikeTag (.charStringLiteral s) (.normalStringLiteral s') := by
  simp [LikeTag, lineBreaks, bodies, itemPlace, ItemBreaks, listKids, overruled, nests]

theorem LikeTag.depth {c : Config} {t t' : Tag} {u u' : Node} (h : LikeTag t t') (hu : LikeTag u.tag u'.tag)
    (hI : HasIndent c u' → HasIndent c u) {i d : Nat} {o o' : Option Str} (hd : Depth c o t i u d o') : Depth c o t' i u' d o' := by
  obtain ⟨_, h2, h3, h4, _, _, _, _, _, _, _, h5, _⟩ := h
  obtain ⟨_, _, _, _, u5, u6, _⟩ := hu
  by_cases hop : ∃ op, t = .binaryOp op
  · obtain ⟨op, rfl⟩ := hop
    rw [(h4 op).2 rfl]
    exact hd
  · rw [depth_iff (fun op e => hop ⟨op, e⟩)] at hd
    rw [depth_iff (fun op e => hop ⟨op, (h4 op).1 e⟩), ← h2, ← h5, h3, u5, u6]
    refine ⟨hd.1, ?_⟩
    have hd := hd.2
    split
    · next hi => rwa [if_pos hi] at hd
    · next hi =>
      rw [if_neg hi] at hd
      exact hd.imp_left fun hd => ⟨hd.1, fun hk h => hd.2 hk (hI h)⟩

theorem LikeTag.breaks {c : Config} {z : List NOpt} {t t' : Tag} (h : LikeTag t t') {kids kids' : List Node}
    (hv : valuesOnly kids = valuesOnly kids') {g d : Nat} (hd : Breaks.At c z t' kids' g d) : Breaks.At c z t kids g d := by
  obtain ⟨h1, _, _, _, _, _, h8, _⟩ := h
  unfold Breaks.At at hd ⊢
  rw [h1, ← h8, hv]
  exact hd

/-! ### The trees -/

/-- The lines of a pair of nodes: the tags are alike, and what holds of the source holds of the output. -/
def LinesPair (c : Config) (ms : List (Nat × Mk)) (out : Str) (n n' : Node) : Prop :=
  LikeTag n.tag n'.tag ∧ tableStart n = tableStart n' ∧
    (∀ k o u z, Landmarks c (InMarks ms) (QM c ms) k o u z n →
      Landmarks c (LineStart c out) (fun m => OnOneLine c out m.span) k o u z n') ∧ (HasIndent c n' → HasIndent c n) ∧
    valuesOnly [n] = valuesOnly [n']

/-- A line that begins with the one begins with the other. -/
def SameStart (c : Config) (ms : List (Nat × Mk)) (out : Str) (n n' : Node) : Prop :=
  ∀ k, InMarks ms n.span.l k → LineStart c out n'.span.l k

/-- Lists of related nodes. -/
inductive NodePairs (R : Node → Node → Prop) : List Node → List Node → Prop
  | nil : NodePairs R [] []
  | cons {n n' : Node} {ns ns' : List Node} : R n n' → NodePairs R ns ns' → NodePairs R (n :: ns) (n' :: ns')

theorem NodePairs.mono {R S : Node → Node → Prop} (hRS : ∀ n n', R n n' → S n n') {ns ns' : List Node}
    (h : NodePairs R ns ns') : NodePairs S ns ns' := by
  induction h with
  | nil => exact .nil
  | cons h _ ih => exact .cons (hRS _ _ h) ih

theorem NodePairs.get {R : Node → Node → Prop} {ns ns' : List Node} (h : NodePairs R ns ns') {i : Nat} {n' : Node}
    (hi : ns'[i]? = some n') : ∃ n, ns[i]? = some n ∧ R n n' := by
  induction h generalizing i with
  | nil => cases hi
  | cons h _ ih =>
    cases i with
    | zero => cases hi; exact ⟨_, rfl, h⟩
    | succ i => exact ih (by simpa using hi)

theorem NodePairs.get' {R : Node → Node → Prop} {ns ns' : List Node} (h : NodePairs R ns ns') {i : Nat} {n : Node}
    (hi : ns[i]? = some n) : ∃ n', ns'[i]? = some n' ∧ R n n' := by
  induction h generalizing i with
  | nil => cases hi
  | cons h _ ih =>
    cases i with
    | zero => cases hi; exact ⟨_, rfl, h⟩
    | succ i => exact ih (by simpa using hi)

theorem LikeTag.nests {t t' : Tag} (h : LikeTag t t') (i : Nat) : nests t i = Spec.nests t' i :=
  h.2.2.2.2.2.2.2.2.2.2.2.2.2.1 i

theorem linesPairs_all {c : Config} {ms : List (Nat × Mk)} {out : Str} {ns ns' : List Node}
    (h : NodePairs (LinesPair c ms out) ns ns') :
    ∀ {t t' : Tag} {i k : Nat} {o : Option Str} {u : Bool} {z : List NOpt}, LikeTag t t' →
      LandmarksAll c (InMarks ms) (QM c ms) k o u z t i ns →
      LandmarksAll c (LineStart c out) (fun m => OnOneLine c out m.span) k o u z t' i ns' := by
  induction h with
  | nil => intro t t' i k o u z _ _; trivial
  | cons h _ ih =>
    intro t t' i k o u z ht hl
    obtain ⟨⟨d, o', h1, h2⟩, h3⟩ := hl
    exact ⟨⟨d, o', ht.depth h.1 h.2.2.2.1 h1, h.2.2.1 _ _ _ _ (by rwa [ht.nests] at h2)⟩, ih ht h3⟩

theorem LinesPair.item {c : Config} {ms : List (Nat × Mk)} {out : Str} {n n' : Node} (hp : LinesPair c ms out n n')
    {z : List NOpt}
    {t t' : Tag} (ht : LikeTag t t') {b : Bool} (hb : ItemBreaks c z t' b n') : ItemBreaks c z t b n := by
  obtain ⟨_, _, _, _, _, _, _, _, e2, _⟩ := ht
  rw [e2] at hb
  obtain ⟨⟨_, _, u0, _, _, _, _, _, _, u1, u2, _⟩, u3, _⟩ := hp
  unfold ItemBreaks BraceStays at hb ⊢
  rw [u3, ← u1, ← u2, ← u0]
  exact hb

theorem valuesOnly_pairs {c : Config} {ms : List (Nat × Mk)} {out : Str} {kids kids' : List Node}
    (hk : NodePairs (LinesPair c ms out) kids kids') : valuesOnly kids = valuesOnly kids' := by
  match hk with
  | .nil => rfl
  | .cons h .nil => exact h.2.2.2.2
  | @NodePairs.cons _ (.mk ..) (.mk ..) _ _ _ (@NodePairs.cons _ (.mk ..) (.mk ..) _ _ _ _) => rfl

theorem all_pairs {c : Config} {ms : List (Nat × Mk)} {out : Str} {kids kids' : List Node}
    (hk : NodePairs (LinesPair c ms out) kids kids') :
    (kids.all fun f => decide (f.tag = .fieldSequential)) = kids'.all fun f => decide (f.tag = .fieldSequential) := by
  induction hk with
  | nil => rfl
  | cons h _ ih =>
    rw [List.all_cons, List.all_cons, ih]
    congr 1
    have := h.1.2.2.2.2.2.2.2.2.2.2.2.2.2
    simp only [this]

theorem hasIndent_pair {c : Config} {ms : List (Nat × Mk)} {out : Str} {t t' : Tag} {span span' : Loc} {locs locs' : List Loc}
    {kids kids' : List Node} (ht : LikeTag t t') (hk : NodePairs (LinesPair c ms out) kids kids')
    (h : HasIndent c (.mk t' span' locs' kids')) : HasIndent c (.mk t span locs kids) := by
  have key : ∀ {P : Prop},
      (P ∧ kids' ≠ [] ∨ ∃ (i : Nat) (n : Node), kids'[i]? = some n ∧ ItemBreaks c [] t' (i == 0) n) →
      (P ∧ kids ≠ [] ∨ ∃ (i : Nat) (n : Node), kids[i]? = some n ∧ ItemBreaks c [] t (i == 0) n) := by
    intro P hx
    refine hx.imp (fun ⟨h1, h2⟩ => ⟨h1, fun e => ?_⟩) (fun ⟨i, n, h1, h2⟩ => ?_)
    · subst e
      cases hk
      exact h2 rfl
    · obtain ⟨m, hm, hp⟩ := hk.get h1
      exact ⟨i, m, hm, hp.item ht h2⟩
  have u5 := ht.2.2.2.2.1
  have u6 := ht.2.2.2.2.2.1
  clear ht
  cases t' <;> try exact h.elim
  case expList s =>
    obtain ⟨s', rfl⟩ := u5.1 ⟨s, rfl⟩
    exact ⟨h.1, key h.2⟩
  case varSuffixList =>
    obtain rfl := u6.1 rfl
    exact ⟨h.1, key h.2⟩

theorem linesPair_mk {c : Config} {ms : List (Nat × Mk)} {out : Str} {t t' : Tag} {span span' : Loc} {locs locs' : List Loc}
    {kids kids' : List Node} (ht : LikeTag t t') (hk : NodePairs (LinesPair c ms out) kids kids')
    (hb : tableStart (.mk t span locs kids) = tableStart (.mk t' span' locs' kids'))
    (hq : (∃ u, overruled c u t ≠ []) → QM c ms (.mk t span locs kids) → OnOneLine c out span')
    (hbr : (∃ a b, t = .tableConstructor a b) → ∀ k, InMarks ms span.l k → LineStart c out span'.l k)
    (hl : ∀ g loc', (∃ z d, Breaks.At c z t kids g d) ∨ (∃ op, t = .binaryOp op) → locs'[g]? = some loc' →
      ∃ loc, locs[g]? = some loc ∧ ∀ k, InMarks ms loc.r k → LineStart c out loc'.r k)
    (hi : ∀ j n n' loc', kids[j]? = some n → kids'[j]? = some n' → t.seps.isSome = true ∨ t.isPlainList = true →
      locs'[itemPlace t j]? = some loc' → ∃ loc, locs[itemPlace t j]? = some loc ∧
        ∀ k, InMarks ms loc.r k → LineStart c out loc'.r k) :
    LinesPair c ms out (.mk t span locs kids) (.mk t' span' locs' kids') := by
  have hv := valuesOnly_pairs hk
  refine ⟨ht, hb, fun k o u z ⟨z', hz, h⟩ => ⟨z', ?_, fun g d loc' hb hg => ?_, fun j n' loc' hj hb hg => ?_,
    fun g op loc' hop hb hg => ?_, fun ⟨e, hb, hw⟩ => hbr (ht.2.2.1.1 hb) _ (h.2.2.2.1 ⟨e, ht.2.2.1.1 hb, hw⟩),
    linesPairs_all hk ht h.2.2.2.2⟩, hasIndent_pair ht hk, all_pairs hk⟩
  · rw [← ht.2.2.2.2.2.2.2.2.2.2.2.2.1 c u]
    exact hz.imp_right fun ⟨h1, h2, h3⟩ => ⟨h1, h2, fun e => hq ⟨u, h1⟩ (h3 e)⟩
  · obtain ⟨loc, h1, h2⟩ := hl g loc' (.inl ⟨z', d, ht.breaks hv hb⟩) hg
    exact h2 _ (h.1 g d loc (ht.breaks hv hb) h1)
  · obtain ⟨n, hn, hp⟩ := hk.get hj
    have hb' := hp.item ht hb
    obtain ⟨_, _, _, _, _, _, _, e1, _⟩ := ht
    rw [e1] at hg
    obtain ⟨loc, h1, h2⟩ := hi j n n' loc' hn hj (ItemBreaks_list hb') hg
    exact h2 _ (h.2.1 j n loc hn hb' h1)
  · have hop' := (ht.2.2.2.1 op).1 hop
    obtain ⟨loc, h1, h2⟩ := hl g loc' (.inr ⟨op, hop'⟩) hg
    refine h2 _ (h.2.2.1 g op loc hop' ⟨hb.1, hb.2.imp id fun hb => ⟨hb.1, hb.2.1, fun n hn => ?_⟩⟩ h1)
    obtain ⟨n', hn', hp⟩ := hk.get' hn
    rw [BraceStays, hp.2.1]
    exact hb.2.2 n' hn'

theorem begins_refl {c : Config} {ms : List (Nat × Mk)} {out : Str} (t : Tag) {span span' : Loc} {locs locs' : List Loc}
    {kids kids' : List Node} (hk : NodePairs (LinesPair c ms out) kids kids') :
    tableStart (.mk t span locs kids) = tableStart (.mk t span' locs' kids') := by
  cases hk with
  | nil => cases t <;> rfl
  | cons h _ =>
    cases t <;> first | rfl | exact h.2.1 | exact congrArg (Option.map fun _ => true) h.2.1

theorem begins_seps (t : Tag) (h : t.seps.isSome = true) (s s' : List Str) {span span' : Loc} {locs locs' : List Loc}
    {kids kids' : List Node} :
    tableStart (.mk (t.setSeps s) span locs kids) = tableStart (.mk (t.setSeps s') span' locs' kids') := by
  cases t <;> simp [Tag.seps] at h <;> rfl

theorem corrAll_get {A : TokL → TokL → Prop} : ∀ {xs xs' : List (Cst TokL)}, CorrAll A xs xs' → ∀ {j : Nat} {x' : Cst TokL},
    xs'[j]? = some x' → ∃ x, xs[j]? = some x ∧ Corr A x x'
  | _, _, .nil, j, x', h => by cases h
  | _, _, .cons hc hs, 0, x', h => by cases h; exact ⟨_, rfl, hc⟩
  | _, _, .cons hc hs, j + 1, x', h => corrAll_get hs (j := j) (by simpa using h)

/-- The places between related parts. -/
theorem gaps_lines {c : Config} {ms : List (Nat × Mk)} {out : Str} {xs xs' : List (Cst TokL)} (hr : ∀ y ∈ xs, Real y)
    (h : CorrAll (Marked c ms out) xs xs') {g : Nat} {loc' : Loc} (hg : (gapsOf (placeAll xs'))[g]? = some loc') :
    ∃ loc, (gapsOf (placeAll xs))[g]? = some loc ∧ ∀ k, InMarks ms loc.r k → LineStart c out loc'.r k := by
  have hlt : g < (gapsOf (placeAll xs')).length := (List.getElem?_eq_some_iff.1 hg).1
  rw [gapsOf_length, placeAll_length] at hlt
  have hx' : xs'[g + 1]? = some (xs'[g + 1]'(by omega)) := List.getElem?_eq_getElem _
  generalize xs'[g + 1]'(by omega) = x' at hx'
  obtain ⟨x, hx, hc⟩ := corrAll_get h hx'
  obtain ⟨l', e1, e2⟩ := gapsOf_get (placeAll_get hx')
  obtain ⟨l, e3, e4⟩ := gapsOf_get (placeAll_get hx)
  rw [hg] at e1
  cases e1
  refine ⟨l, e3, fun k hk => ?_⟩
  rw [e4] at hk
  rw [e2]
  exact marked_line (hr _ (List.mem_of_getElem? hx)) hc hk

theorem kidsOf_kid {x : Cst TokL} {tag : Tag} {ys : List (Cst TokL)} (h : x = .node tag ys) (xs : List (Cst TokL)) :
    kidsOf (x :: xs) = placeNode x :: kidsOf xs := by
  subst h
  rfl

theorem corr_kids {c : Config} {ms : List (Nat × Mk)} {out : Str} {x x' : Cst TokL} {xs xs' : List (Cst TokL)}
    (h : Corr (Marked c ms out) x x')
    (hx : ∀ n, placeC x = .node n → ∃ n', placeC x' = .node n' ∧ LinesPair c ms out n n' ∧ SameStart c ms out n n')
    (hs : NodePairs (fun n n' => LinesPair c ms out n n' ∧ SameStart c ms out n n') (kidsOf xs) (kidsOf xs')) :
    NodePairs (fun n n' => LinesPair c ms out n n' ∧ SameStart c ms out n n') (kidsOf (x :: xs)) (kidsOf (x' :: xs')) := by
  cases h with
  | tok _ => exact hs
  | node _ =>
    obtain ⟨n', e, h⟩ := hx _ rfl
    cases e
    exact .cons h hs
  | str _ =>
    obtain ⟨n', e, h⟩ := hx _ rfl
    cases e
    exact .cons h hs
  | fields _ _ =>
    obtain ⟨n', e, h⟩ := hx _ rfl
    cases e
    exact .cons h hs

theorem list_over {c : Config} {t : Tag} {P : Prop} (h : t.seps.isSome = true ∨ t.isPlainList = true)
    (ho : ∃ u, overruled c u t ≠ []) : P := by
  have := ho.elim fun _ h => overruled_fold h
  rw [(list_quiet h).2.1] at this
  cases this

theorem lines_list {c : Config} {t : Tag} {kids : List Node} {g : Nat} (h : t.seps.isSome = true ∨ t.isPlainList = true)
    (hb : (∃ z d, Breaks.At c z t kids g d) ∨ ∃ op, t = .binaryOp op) : False := by
  rcases hb with ⟨z, d, hb⟩ | ⟨op, rfl⟩
  · exact breaksAt_list h hb
  · simp [Tag.seps, Tag.isPlainList] at h

theorem list_table {t : Tag} {P : Prop} (h : t.seps.isSome = true ∨ t.isPlainList = true)
    (ht : ∃ a b, t = .tableConstructor a b) : P := by
  obtain ⟨_, _, rfl⟩ := ht
  simp [Tag.seps, Tag.isPlainList] at h

theorem sameStart_of {c : Config} {ms : List (Nat × Mk)} {out : Str} {x x' : Cst TokL} (hr : Real x)
    (h : Corr (Marked c ms out) x x') {n n' : Node} (e : placeC x = .node n) (e' : placeC x' = .node n') :
    SameStart c ms out n n' := by
  intro k hk
  have := marked_line hr h (k := k) (by rw [e]; exact hk)
  rw [e'] at this
  exact this

/-- The places before the items of related lists. -/
theorem items_lines {c : Config} {ms : List (Nat × Mk)} {out : Str} {t t' : Tag} {locs locs' : List Loc}
    {kids kids' : List Node} (h : t.seps.isSome = true ∨ t.isPlainList = true → ∀ (j : Nat) m, kids[j]? = some m →
      ∃ loc, locs[itemPlace t j]? = some loc ∧ loc.r = m.span.l)
    (h' : t'.seps.isSome = true ∨ t'.isPlainList = true → ∀ (j : Nat) m, kids'[j]? = some m →
      ∃ loc, locs'[itemPlace t' j]? = some loc ∧ loc.r = m.span.l) (ht : LikeTag t t')
    (hl : t.seps.isSome = true ∨ t.isPlainList = true → t'.seps.isSome = true ∨ t'.isPlainList = true)
    (hk : NodePairs (SameStart c ms out) kids kids') :
    ∀ j n n' loc', kids[j]? = some n → kids'[j]? = some n' → t.seps.isSome = true ∨ t.isPlainList = true →
      locs'[itemPlace t j]? = some loc' → ∃ loc, locs[itemPlace t j]? = some loc ∧
        ∀ k, InMarks ms loc.r k → LineStart c out loc'.r k := by
  intro j n n' loc' hn hn' hL hg
  obtain ⟨loc, h1, h2⟩ := h hL j n hn
  obtain ⟨loc'', h3, h4⟩ := h' (hl hL) j n' hn'
  rw [ht.2.2.2.2.2.2.2.1, hg] at h3
  cases h3
  refine ⟨loc, h1, fun k hm => ?_⟩
  rw [h2] at hm
  rw [h4]
  obtain ⟨n2, e, hs⟩ := hk.get' hn
  rw [hn'] at e
  cases e
  exact hs k hm

mutual
/-- What is marked in the source is a line in the output. -/
theorem corr_lines {c : Config} {ms : List (Nat × Mk)} {out : Str} : ∀ (x x' : Cst TokL), Real x → Real x' →
    Corr (Marked c ms out) x x' → ∀ n, placeC x = .node n → ∃ n', placeC x' = .node n' ∧ LinesPair c ms out n n' ∧
      SameStart c ms out n n'
  | .tok t, x', _, _, _, n, e => by cases e
  | .node tag xs, x', hr, hr', hc, n, e => by
    have hk := (real_kids hr).2
    have hst := fun n' => sameStart_of hr hc e (n' := n')
    cases e
    cases hc with
    | str ha =>
      exact ⟨_, rfl, linesPair_mk (likeTag_str _ _) .nil rfl (fun ⟨_, h⟩ => absurd (by simp [overruled]) h) (fun ⟨_, _, h⟩ => by cases h) (fun g loc' hb => by simp [Breaks.At, lineBreaks] at hb)
        (fun j n n' loc' hj => by cases hj), hst _ rfl⟩
    | @node _ _ xs' hc =>
      refine ⟨_, rfl, ?_, hst _ rfl⟩
      have hks' := corrAll_lines xs xs' hk (real_kids hr').2 hc
      have hks := hks'.mono (fun _ _ h => h.1)
      obtain ⟨_, hd⟩ := real_derives hr
      obtain ⟨_, hd'⟩ := real_derives hr'
      have hp := buildNode_places hd
      have hp' := buildNode_places hd'
      obtain ⟨span, _, ⟨pre, sps, hs, e, _⟩ | ⟨pre, hs, hpl, e, _⟩ | ⟨hs, hpl, e⟩⟩ := buildNode_eq tag xs <;>
      obtain ⟨span', _, ⟨pre', sps', hs', e', _⟩ | ⟨pre', hs', hpl', e', _⟩ | ⟨hs', hpl', e'⟩⟩ := buildNode_eq tag xs'
      all_goals first
        | (rw [hs] at hs'; cases hs'; done)
        | (rw [hpl] at hpl'; cases hpl'; done)
        | skip
      · have hso : tag.seps.isSome = true := by rw [hs]; rfl
        rw [e] at hp ⊢
        rw [e'] at hp' ⊢
        exact linesPair_mk (likeTag_setSeps _ _ _) hks (begins_seps tag hso _ _) (list_over (.inl (by rw [setSeps_seps hso]; rfl)))
          (list_table (.inl (by rw [setSeps_seps hso]; rfl)))
          (fun g loc' hb => (lines_list (.inl (by rw [setSeps_seps hso]; rfl)) hb).elim)
          (items_lines hp hp' (likeTag_setSeps _ _ _) (fun _ => .inl (by rw [setSeps_seps hso]; rfl))
            (hks'.mono (fun _ _ h => h.2)))
      · rw [e] at hp ⊢
        rw [e'] at hp' ⊢
        exact linesPair_mk (.refl _) hks (begins_refl _ hks) (list_over (.inr hpl)) (list_table (.inr hpl))
          (fun g loc' hb => (lines_list (.inr hpl) hb).elim)
          (items_lines hp hp' (.refl _) id (hks'.mono (fun _ _ h => h.2)))
      · have hf := fun h => fold_line hr hc (c := c) h hs hpl
        rw [e, e'] at hf
        have hss : SameStart c ms out (buildNode tag (placeAll xs)) (buildNode tag (placeAll xs')) := hst _ rfl
        rw [e, e'] at hss
        rw [e, e']
        exact linesPair_mk (.refl _) hks (begins_refl _ hks) hf (fun _ => hss) (fun g loc' hb hg => gaps_lines hk hc hg)
          (fun j n n' loc' _ _ hl => by
            rcases hl with h | h
            · rw [hs] at h; cases h
            · rw [hpl] at h; cases h)
    | @fields _ _ xs' hf hc =>
      refine ⟨_, rfl, ?_, hst _ rfl⟩
      have hks' := corrFields_lines xs xs' hk (real_kids hr').2 hc
      have hks := hks'.mono (fun _ _ h => h.1)
      obtain ⟨_, hd⟩ := real_derives hr
      obtain ⟨_, hd'⟩ := real_derives hr'
      have hp := buildNode_places hd
      have hp' := buildNode_places hd'
      have hso : tag.seps.isSome = true := by cases tag <;> simp [Tag.isFields] at hf <;> rfl
      obtain ⟨span, _, ⟨pre, sps, hs, e, _⟩ | ⟨pre, hs, hpl, e, _⟩ | ⟨hs, hpl, e⟩⟩ := buildNode_eq tag xs <;>
      obtain ⟨span', _, ⟨pre', sps', hs', e', _⟩ | ⟨pre', hs', hpl', e', _⟩ | ⟨hs', hpl', e'⟩⟩ := buildNode_eq tag xs'
      all_goals first
        | (rw [hs] at hso; cases hso; done)
        | (rw [hs'] at hso; cases hso; done)
        | skip
      rw [e] at hp ⊢
      rw [e'] at hp' ⊢
      exact linesPair_mk (likeTag_setSeps _ _ _) hks (begins_seps tag hso _ _) (list_over (.inl (by rw [setSeps_seps hso]; rfl)))
          (list_table (.inl (by rw [setSeps_seps hso]; rfl)))
        (fun g loc' hb => (lines_list (.inl (by rw [setSeps_seps hso]; rfl)) hb).elim)
        (items_lines hp hp' (likeTag_setSeps _ _ _) (fun _ => .inl (by rw [setSeps_seps hso]; rfl))
          (hks'.mono (fun _ _ h => h.2)))
theorem corrAll_lines {c : Config} {ms : List (Nat × Mk)} {out : Str} : ∀ (xs xs' : List (Cst TokL)), (∀ y ∈ xs, Real y) →
    (∀ y ∈ xs', Real y) → CorrAll (Marked c ms out) xs xs' →
    NodePairs (fun n n' => LinesPair c ms out n n' ∧ SameStart c ms out n n') (kidsOf xs) (kidsOf xs')
  | [], _, _, _, h => by cases h; exact .nil
  | x :: xs, _, hr, hr', h => by
    cases h with
    | cons hx hs =>
      exact corr_kids hx (corr_lines x _ (hr _ List.mem_cons_self) (hr' _ List.mem_cons_self) hx)
        (corrAll_lines xs _ (fun y hy => hr y (List.mem_cons_of_mem _ hy)) (fun y hy => hr' y (List.mem_cons_of_mem _ hy)) hs)
theorem corrFields_lines {c : Config} {ms : List (Nat × Mk)} {out : Str} : ∀ (xs xs' : List (Cst TokL)), (∀ y ∈ xs, Real y) →
    (∀ y ∈ xs', Real y) → CorrFields (Marked c ms out) xs xs' →
    NodePairs (fun n n' => LinesPair c ms out n n' ∧ SameStart c ms out n n') (kidsOf xs) (kidsOf xs')
  | [], _, _, _, h => by cases h
  | [x], _, hr, hr', h => by
    generalize e : [x] = l at h
    cases h with
    | @last y y' ts ts' hx =>
      cases ts with
      | none =>
        cases e
        refine corr_kids hx (corr_lines x _ (hr _ List.mem_cons_self) (hr' _ List.mem_cons_self) hx) ?_
        cases ts' <;> exact .nil
      | some t => cases e
    | cons _ _ _ => cases e
  | x :: y :: xs, _, hr, hr', h => by
    generalize e : x :: y :: xs = l at h
    cases h with
    | @last z z' ts ts' hx =>
      cases ts with
      | none => cases e
      | some t =>
        cases e
        refine corr_kids hx (corr_lines x _ (hr _ List.mem_cons_self) (hr' _ List.mem_cons_self) hx) ?_
        cases ts' <;> exact .nil
    | @cons z z' t t' zs zs' hx ha hs =>
      cases e
      refine corr_kids hx (corr_lines x _ (hr _ List.mem_cons_self) (hr' _ List.mem_cons_self) hx) ?_
      exact corrFields_lines xs zs' (fun y hy => hr y (List.mem_cons_of_mem _ (List.mem_cons_of_mem _ hy)))
        (fun y hy => hr' y (List.mem_cons_of_mem _ (List.mem_cons_of_mem _ hy))) hs
end

theorem written_lines {c : Config} {ms : List (Nat × Mk)} {out : Str} {x x' : Cst TokL}
    (h : Written c (Marked c ms out) x x') : LinesPair c ms out (placeNode x) (placeNode x') := by
  obtain ⟨n, h1, h2⟩ := h.derives
  obtain ⟨n', e, h3, _⟩ := corr_lines x x' (.inr ⟨n, h1⟩) (.inr ⟨n, h2⟩) h.corr _ (placeC_node h1)
  rw [placeC_node h2] at e
  cases e
  exact h3

theorem chunk_lines {c : Config} {ms : List (Nat × Mk)} {out : Str} {e e' : Nat} {tree tree' : Node}
    (h : ChunkPair (Written c (Marked c ms out)) e e' tree tree') : LinesPair c ms out tree tree' := by
  cases h with
  | empty =>
    refine linesPair_mk (.refl _) (.cons ?_ .nil) rfl (fun ⟨_, h⟩ => absurd (by simp [overruled]) h) (fun ⟨_, _, h⟩ => by cases h) (fun g loc' hb => by simp [Breaks.At, lineBreaks] at hb)
      (fun j n n' loc' _ _ hl => by simp [Tag.seps, Tag.isPlainList] at hl)
    exact linesPair_mk (.refl _) .nil rfl (fun ⟨_, h⟩ => absurd (by simp [overruled]) h) (fun ⟨_, _, h⟩ => by cases h) (fun g loc' hb hg => by simp at hg) (fun j n n' loc' hj => by cases hj)
  | one h =>
    exact linesPair_mk (.refl _) (.cons (written_lines h) .nil) rfl
      (fun ⟨_, h⟩ => absurd (by simp [overruled]) h) (fun ⟨_, _, h⟩ => by cases h) (fun g loc' hb => by simp [Breaks.At, lineBreaks] at hb)
      (fun j n n' loc' _ _ hl => by simp [Tag.seps, Tag.isPlainList] at hl)
  | two h1 h2 =>
    exact linesPair_mk (.refl _) (.cons (written_lines h1) (.cons (written_lines h2) .nil)) rfl
      (fun ⟨_, h⟩ => absurd (by simp [overruled]) h) (fun ⟨_, _, h⟩ => by cases h)
      (fun g loc' hb => by simp [Breaks.At, lineBreaks] at hb)
      (fun j n n' loc' _ _ hl => by simp [Tag.seps, Tag.isPlainList] at hl)

/-- Formatting without a range: the printed text is a rendering that begins the lines of the specification. -/
theorem format_marks {c : Config} {src out : Str} (hl : c.lineRange = none) (h : format c src = .ok out) :
    ∃ tree ms, parseLua src = some tree ∧ LEmits False ⟨src, none⟩ c none (tree.items c) ms [] out ∧
      Landmarks c (InMarks ms) (QM c ms) 0 none false [] tree := by
  unfold format at h
  split at h
  · cases h
  · next tree ht =>
    have hf : formatTree c src tree = .ok out := by
      split at h <;> cases h
      assumption
    simp only [formatTree, effectiveRange, hl, Res.bind_eq_ok, Res.pure_eq] at hf
    obtain ⟨pr, ⟨pr0, h1, h2⟩, h3⟩ := hf
    simp only [lineRangeToPosRange] at h1
    cases h1
    cases h2
    rw [growRange_none] at h3
    obtain ⟨ms, h4, h5⟩ := writeTree_marks (env := ⟨src, none⟩) rfl (parseLua_ready ht) (parseLua_live ht none)
      (parseLua_isRoot ht) h3
    exact ⟨tree, ms, ht, h4, h5⟩

end Luafmt
