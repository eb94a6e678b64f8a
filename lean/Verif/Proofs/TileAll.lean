import Verif.Proofs.Tile

/-
The tile theorem for derivation trees and chunks.
-/
namespace Luafmt
open Spec

theorem leaf_out {c : Config} {tag : Tag} {s : Str} (h : tag.leafText = some s) :
    ((annotateTag c none tag []).leafText).getD s = s ∨
    ∃ w, tag = .charStringLiteral w ∧ c.bool .convertCharstringToNormalstring = some true ∧
      ((annotateTag c none tag []).leafText).getD s = spell (.normalString (charToNormal w)) := by
  cases tag <;> simp only [Tag.leafText] at h <;> first | (cases h; done) | skip
  case charStringLiteral w =>
    simp only [annotateTag]
    split
    · rename_i e
      exact .inr ⟨w, rfl, e, rfl⟩
    · left; simp only [Tag.leafText, h, Option.getD_some]
  all_goals (left; simp only [annotateTag, Tag.leafText, h, Option.getD_some])

theorem leafTag_text {t : Token} {a : NT} {tag : Tag} (h : leafTag t = some (a, tag)) :
    tag.leafText = some (spell t) ∧ tag.seps = none ∧ tag.isPlainList = false ∧
      ∀ w, tag = .charStringLiteral w → t = .charString w := by
  unfold leafTag at h
  split at h <;> cases h <;>
    simp [Tag.leafText, spell, opener, closer, Tag.seps, Tag.isPlainList]

theorem setSeps_leaf (ss : List Str) (tag : Tag) : (tag.setSeps ss).leafText = tag.leafText := by
  cases tag <;> rfl

theorem setSeps_frame (c : Config) (ss : List Str) (tag : Tag) : frame c (tag.setSeps ss) = frame c tag := by
  cases tag <;> rfl

theorem setSeps_seps {ss : List Str} {tag : Tag} (h : tag.seps.isSome = true) :
    (tag.setSeps ss).seps = some ss := by
  cases tag <;> simp [Tag.seps] at h <;> rfl

theorem sepIs_tags {c : Config} {t t' : Tag} (h1 : separator c t = separator c t')
    (h2 : elementHint t = elementHint t') (h3 : t.isFields = t'.isFields) : ∀ (us : List Str) (h : Str)
    (ls : List Loc) (ks : List (List Item)), sepIs c t h ls ks us = sepIs c t' h ls ks us := by
  intro us
  induction us with
  | nil => intro h ls ks; simp [sepIs]
  | cons u us ih =>
    intro h ls ks
    match ls, ks with
    | pre :: post :: ls, k :: ks => simp only [sepIs, h1, h2, h3, ih]
    | [], _ => simp [sepIs]
    | [_], _ => simp [sepIs]
    | _ :: _ :: _, [] => simp [sepIs]

theorem setSeps_sepIs (c : Config) (ss : List Str) (tag : Tag) (h : Str) (ls : List Loc) (ks : List (List Item))
    (us : List Str) : sepIs c (tag.setSeps ss) h ls ks us = sepIs c tag h ls ks us := by
  apply sepIs_tags <;> cases tag <;> rfl

theorem endOf_eq (a : Nat) : ∀ (x : Cst TokL) (xs : List (Cst TokL)),
    (((placeAll (x :: xs)).getLast?).map (·.span.r)).getD 0 = endOf a (x :: xs) := by
  intro x xs
  induction xs generalizing x a with
  | nil => rfl
  | cons y ys ih =>
    have := ih (placeC x).span.r y
    simp only [placeAll, endOf] at this ⊢
    rw [← this]
    rfl

theorem stripAll_cons {xs : List (Cst TokL)} {y : C} {ys : List C} (h : stripAll xs = y :: ys) :
    ∃ z zs, xs = z :: zs ∧ strip z = y ∧ stripAll zs = ys := by
  cases xs with
  | nil => simp [stripAll] at h
  | cons z zs => simp [stripAll] at h; exact ⟨z, zs, rfl, h.1, h.2⟩

theorem stripAll_nil {xs : List (Cst TokL)} (h : stripAll xs = []) : xs = [] := by
  cases xs with
  | nil => rfl
  | cons z zs => simp [stripAll] at h

/-- A separated list as the last symbol. -/
theorem sepShape_of_sep {tag : Tag} {n : NT} {xs : List (Cst TokL)}
    (h : Matches [.sep n (sepTok tag)] (stripAll xs)) : SepShape tag xs := by
  induction hl : xs.length using Nat.strongRecOn generalizing xs with
  | _ k ih =>
    generalize e : stripAll xs = cs at h
    cases h with
    | sepLast hd hm =>
      cases hm
      obtain ⟨z, zs, rfl, e1, e2⟩ := stripAll_cons e
      cases stripAll_nil e2
      obtain ⟨t, ys, rfl⟩ := strip_derives (e1 ▸ hd)
      exact .one _ _
    | sepCons hd hm =>
      obtain ⟨z, zs, rfl, e1, e2⟩ := stripAll_cons e
      obtain ⟨w, ws, rfl, e3, e4⟩ := stripAll_cons e2
      obtain ⟨t, ys, rfl⟩ := strip_derives (e1 ▸ hd)
      obtain ⟨u, rfl, e5⟩ := strip_tok e3
      exact .cons _ _ _ _ (.inl e5) (ih _ (by rw [← hl]; simp only [List.length_cons]; omega) (e4 ▸ hm) rfl)

/-- A separated list that may end in a separator. -/
theorem sepShape_of_sepEnd {tag : Tag} (hf : tag.isFields = true) {n : NT} {xs : List (Cst TokL)}
    (h : Matches [.sepEnd n] (stripAll xs)) : SepShape tag xs := by
  induction hl : xs.length using Nat.strongRecOn generalizing xs with
  | _ k ih =>
    generalize e : stripAll xs = cs at h
    cases h with
    | sepEndLast hd hm =>
      cases hm
      obtain ⟨z, zs, rfl, e1, e2⟩ := stripAll_cons e
      cases stripAll_nil e2
      obtain ⟨t, ys, rfl⟩ := strip_derives (e1 ▸ hd)
      exact .one _ _
    | sepEndTrail hd hs hm =>
      cases hm
      obtain ⟨z, zs, rfl, e1, e2⟩ := stripAll_cons e
      obtain ⟨w, ws, rfl, e3, e4⟩ := stripAll_cons e2
      cases stripAll_nil e4
      obtain ⟨t, ys, rfl⟩ := strip_derives (e1 ▸ hd)
      obtain ⟨u, rfl, e5⟩ := strip_tok e3
      exact .trail _ _ _ hf (e5 ▸ hs)
    | sepEndCons hd hs hm =>
      obtain ⟨z, zs, rfl, e1, e2⟩ := stripAll_cons e
      obtain ⟨w, ws, rfl, e3, e4⟩ := stripAll_cons e2
      obtain ⟨t, ys, rfl⟩ := strip_derives (e1 ▸ hd)
      obtain ⟨u, rfl, e5⟩ := strip_tok e3
      exact .cons _ _ _ _ (.inr ⟨hf, e5 ▸ hs⟩) (ih _ (by rw [← hl]; simp only [List.length_cons]; omega) (e4 ▸ hm) rfl)

theorem sepShape_of_form {tag : Tag} {ss : List Sym} (hs : sepForm tag ss = true) {xs : List (Cst TokL)}
    (h : Matches ss (stripAll xs)) : SepShape tag xs := by
  unfold sepForm at hs
  split at hs
  · have := eq_of_beq hs
    subst this
    exact sepShape_of_sep h
  · generalize e : stripAll xs = cs at h
    cases h with
    | n hd hm =>
      cases hm
      obtain ⟨z, zs, rfl, e1, e2⟩ := stripAll_cons e
      cases stripAll_nil e2
      obtain ⟨t, ys, rfl⟩ := strip_derives (e1 ▸ hd)
      exact .one _ _
  · simp only [Bool.and_eq_true] at hs
    have h1 := eq_of_beq hs.1
    have h2 := eq_of_beq hs.2
    subst h1
    subst h2
    generalize e : stripAll xs = cs at h
    cases h with
    | n hd hm =>
      cases hm with
      | t hm =>
        obtain ⟨z, zs, rfl, e1, e2⟩ := stripAll_cons e
        obtain ⟨w, ws, rfl, e3, e4⟩ := stripAll_cons e2
        obtain ⟨t, ys, rfl⟩ := strip_derives (e1 ▸ hd)
        obtain ⟨u, rfl, e5⟩ := strip_tok e3
        exact .cons _ _ _ _ (.inl e5) (sepShape_of_sep (e4 ▸ hm))
  · exact sepShape_of_sepEnd hs h
  · cases hs

/-- The trees of a right-hand side are tokens or derivation trees. -/
theorem matches_all : ∀ {ss : List Sym} {cs : List C}, Matches ss cs → ∀ y ∈ cs,
    (∃ t, y = .tok t) ∨ ∃ n, Derives n y
  | _, _, .nil, _, h => nomatch h
  | _, _, .t hm, y, h => by
    rcases List.mem_cons.mp h with rfl | h
    · exact .inl ⟨_, rfl⟩
    · exact matches_all hm _ h
  | _, _, .n hd hm, y, h => by
    rcases List.mem_cons.mp h with rfl | h
    · exact .inr ⟨_, hd⟩
    · exact matches_all hm _ h
  | _, _, .listLast hd hm, y, h => by
    rcases List.mem_cons.mp h with rfl | h
    · exact .inr ⟨_, hd⟩
    · exact matches_all hm _ h
  | _, _, .listCons hd hm, y, h => by
    rcases List.mem_cons.mp h with rfl | h
    · exact .inr ⟨_, hd⟩
    · exact matches_all hm _ h
  | _, _, .sepLast hd hm, y, h => by
    rcases List.mem_cons.mp h with rfl | h
    · exact .inr ⟨_, hd⟩
    · exact matches_all hm _ h
  | _, _, .sepCons hd hm, y, h => by
    rcases List.mem_cons.mp h with rfl | h
    · exact .inr ⟨_, hd⟩
    · rcases List.mem_cons.mp h with rfl | h
      · exact .inl ⟨_, rfl⟩
      · exact matches_all hm _ h
  | _, _, .sepEndLast hd hm, y, h => by
    rcases List.mem_cons.mp h with rfl | h
    · exact .inr ⟨_, hd⟩
    · exact matches_all hm _ h
  | _, _, .sepEndTrail hd _ hm, y, h => by
    rcases List.mem_cons.mp h with rfl | h
    · exact .inr ⟨_, hd⟩
    · rcases List.mem_cons.mp h with rfl | h
      · exact .inl ⟨_, rfl⟩
      · exact matches_all hm _ h
  | _, _, .sepEndCons hd _ hm, y, h => by
    rcases List.mem_cons.mp h with rfl | h
    · exact .inr ⟨_, hd⟩
    · rcases List.mem_cons.mp h with rfl | h
      · exact .inl ⟨_, rfl⟩
      · exact matches_all hm _ h

/-- A right-hand side of nonterminals and lists has nodes as parts. -/
theorem nodes_of_matches : ∀ {ss : List Sym} {cs : List C}, ss.all Sym.isNL = true → Matches ss cs →
    ∀ y ∈ cs, ∃ n, Derives n y
  | _, _, _, .nil, _, h => nomatch h
  | _, _, hs, .t hm, y, h => by simp [Sym.isNL] at hs
  | _, _, hs, .n hd hm, y, h => by
    rcases List.mem_cons.mp h with rfl | h
    · exact ⟨_, hd⟩
    · exact nodes_of_matches (by simp at hs ⊢; exact hs.2) hm _ h
  | _, _, hs, .listLast hd hm, y, h => by
    rcases List.mem_cons.mp h with rfl | h
    · exact ⟨_, hd⟩
    · exact nodes_of_matches (by simp at hs ⊢; exact hs.2) hm _ h
  | _, _, hs, .listCons hd hm, y, h => by
    rcases List.mem_cons.mp h with rfl | h
    · exact ⟨_, hd⟩
    · exact nodes_of_matches hs hm _ h
  | _, _, hs, .sepLast hd hm, y, h => by simp [Sym.isNL] at hs
  | _, _, hs, .sepCons hd hm, y, h => by simp [Sym.isNL] at hs
  | _, _, hs, .sepEndLast hd hm, y, h => by simp [Sym.isNL] at hs
  | _, _, hs, .sepEndTrail hd _ hm, y, h => by simp [Sym.isNL] at hs
  | _, _, hs, .sepEndCons hd _ hm, y, h => by simp [Sym.isNL] at hs

/-- The nonterminal of a symbol is not a field list. -/
def Sym.noFl : Sym → Bool
  | .n a | .list a | .sep a _ | .sepEnd a => decide (a ≠ .fieldList)
  | .t _ => true

theorem matches_noFl : ∀ {ss : List Sym} {cs : List C}, ss.all Sym.noFl = true → Matches ss cs →
    ∀ y ∈ cs, y.isFl = false := by
  intro ss cs hs hm y hy
  cases hf : y.isFl with
  | false => rfl
  | true =>
    exfalso
    have key : ∀ {ss : List Sym} {cs : List C}, Matches ss cs → ss.all Sym.noFl = true → ∀ y ∈ cs,
        (∃ t, y = .tok t) ∨ ∃ n, n ≠ .fieldList ∧ Derives n y := by
      intro ss cs hm
      induction hl : cs.length using Nat.strongRecOn generalizing ss cs with
      | _ k ih =>
      subst hl
      intro hs y hy
      cases hm with
      | nil => cases hy
      | t hm =>
        rcases List.mem_cons.mp hy with rfl | hy
        · exact .inl ⟨_, rfl⟩
        · exact ih _ (by simp) hm rfl (by simp at hs ⊢; exact hs.2) _ hy
      | n hd hm =>
        rcases List.mem_cons.mp hy with rfl | hy
        · exact .inr ⟨_, by simp [Sym.noFl] at hs; exact hs.1, hd⟩
        · exact ih _ (by simp) hm rfl (by simp at hs ⊢; exact hs.2) _ hy
      | listLast hd hm =>
        rcases List.mem_cons.mp hy with rfl | hy
        · exact .inr ⟨_, by simp [Sym.noFl] at hs; exact hs.1, hd⟩
        · exact ih _ (by simp) hm rfl (by simp at hs ⊢; exact hs.2) _ hy
      | listCons hd hm =>
        rcases List.mem_cons.mp hy with rfl | hy
        · exact .inr ⟨_, by simp [Sym.noFl] at hs; exact hs.1, hd⟩
        · exact ih _ (by simp) hm rfl hs _ hy
      | sepLast hd hm =>
        rcases List.mem_cons.mp hy with rfl | hy
        · exact .inr ⟨_, by simp [Sym.noFl] at hs; exact hs.1, hd⟩
        · exact ih _ (by simp) hm rfl (by simp at hs ⊢; exact hs.2) _ hy
      | sepCons hd hm =>
        rcases List.mem_cons.mp hy with rfl | hy
        · exact .inr ⟨_, by simp [Sym.noFl] at hs; exact hs.1, hd⟩
        · rcases List.mem_cons.mp hy with rfl | hy
          · exact .inl ⟨_, rfl⟩
          · exact ih _ (by simp; omega) hm rfl hs _ hy
      | sepEndLast hd hm =>
        rcases List.mem_cons.mp hy with rfl | hy
        · exact .inr ⟨_, by simp [Sym.noFl] at hs; exact hs.1, hd⟩
        · exact ih _ (by simp) hm rfl (by simp at hs ⊢; exact hs.2) _ hy
      | sepEndTrail hd _ hm =>
        rcases List.mem_cons.mp hy with rfl | hy
        · exact .inr ⟨_, by simp [Sym.noFl] at hs; exact hs.1, hd⟩
        · rcases List.mem_cons.mp hy with rfl | hy
          · exact .inl ⟨_, rfl⟩
          · exact ih _ (by simp; omega) hm rfl (by simp at hs ⊢; exact hs.2) _ hy
      | sepEndCons hd _ hm =>
        rcases List.mem_cons.mp hy with rfl | hy
        · exact .inr ⟨_, by simp [Sym.noFl] at hs; exact hs.1, hd⟩
        · rcases List.mem_cons.mp hy with rfl | hy
          · exact .inl ⟨_, rfl⟩
          · exact ih _ (by simp; omega) hm rfl hs _ hy
    rcases key hm hs y hy with ⟨t, rfl⟩ | ⟨n, hn, hd⟩
    · cases hf
    · exact hn (derives_fields hd hf)

theorem mem_stripAll {xs : List (Cst TokL)} {y : Cst TokL} (h : y ∈ xs) : strip y ∈ stripAll xs := by
  induction xs with
  | nil => cases h
  | cons x xs ih =>
    simp only [stripAll]
    rcases List.mem_cons.mp h with rfl | h
    · exact List.mem_cons_self
    · exact List.mem_cons_of_mem _ (ih h)

theorem prods_noFl (p : NT × Tag × List Sym) (hp : p ∈ prods)
    (h : (p.2.1.seps.isSome || p.2.1.isPlainList) = true) {xs : List (Cst TokL)} (hm : Matches p.2.2 (stripAll xs)) :
    ∀ y ∈ xs, y.isFl = false := by
  have key : ∀ p ∈ prods, (p.2.1.seps.isSome || p.2.1.isPlainList) = true → p.2.2.all Sym.noFl = true := by
    decide +kernel
  intro y hy
  rw [← isFl_strip]
  exact matches_noFl (key p hp h) hm _ (mem_stripAll hy)

/-! ### Nodes -/

theorem good_tok (c : Config) (t : TokL) : Good c (.tok t) := by
  refine ⟨⟨t, [], rfl, rfl⟩, fun rest _ => ?_⟩
  exact .lit rfl (.inl rfl) .nil

theorem buildNode_span (tag : Tag) (ps : List Part) : (buildNode tag ps).span =
    ⟨(ps.head?.map (·.span.l)).getD 0, (ps.getLast?.map (·.span.r)).getD 0⟩ := by
  unfold buildNode
  split
  · rfl
  · split <;> rfl

theorem good_of_tile {c : Config} {tag : Tag} {x : Cst TokL} {xs : List (Cst TokL)} (hx : Good c x)
    (h : ∀ rest, (tag.isFields = true → AtCurly rest) → Tile c (placeC x).span.l (Cst.yields (x :: xs) ++ rest)
      ((buildNode tag (placeAll (x :: xs))).items c) (endOf (placeC x).span.r xs) rest) :
    Good c (.node tag (x :: xs)) := by
  have hsp : (placeC (.node tag (x :: xs))).span = ⟨(placeC x).span.l, endOf (placeC x).span.r xs⟩ := by
    have e : (placeC (.node tag (x :: xs))).span = (buildNode tag (placeAll (x :: xs))).span := by
      simp only [placeC]; rfl
    rw [e, buildNode_span, endOf_eq 0]
    rfl
  obtain ⟨⟨t, ts, e1, e2⟩, _⟩ := hx
  constructor
  · refine ⟨t, ts ++ Cst.yields xs, ?_, ?_⟩
    · simp [Cst.yield, Cst.yields, e1]
    · rw [hsp]; exact e2
  · intro rest hr
    rw [hsp]
    have := h rest hr
    simpa [Cst.yield, placeC, Part.items] using this

theorem plain_kids {c : Config} {xs : List (Cst TokL)} (h : ∀ y ∈ xs, ∃ tag ys, y = .node tag ys) :
    ((((placeAll xs).filterMap Part.node?).map Node.tag).zip (kidItems c xs)).map Prod.snd =
      (placeAll xs).map (Part.items c) := by
  induction xs with
  | nil => rfl
  | cons x xs ih =>
    obtain ⟨tag, ys, rfl⟩ := h _ List.mem_cons_self
    have := ih (fun y hy => h y (List.mem_cons_of_mem _ hy))
    simp only [kidItems] at this
    simp [placeAll, placeC, Part.node?, kidItems, Node.itemsAll, Part.items, this]

theorem node_good {c : Config} {n : NT} {tag : Tag} {xs : List (Cst TokL)}
    (h : Derives n (.node tag (stripAll xs))) (hg : ∀ x ∈ xs, Good c x) : Good c (.node tag xs) := by
  rcases derives_inv h with ⟨a, tag', ss, cs, e, hp, hm⟩ | ⟨a, tag', t, e, hl⟩
  · cases e
    have hc := prods_checked _ hp
    have hne : ss ≠ [] := by
      intro e0
      subst e0
      simp only [prodCheck] at hc
      split at hc
      · cases hc
      · split at hc
        · simp [sepForm] at hc
        · split at hc <;> simp at hc
    have hxs : ∃ y ys, xs = y :: ys := by
      cases xs with
      | cons y ys => exact ⟨y, ys, rfl⟩
      | nil =>
        simp only [stripAll] at hm
        cases hm
        exact absurd rfl hne
    obtain ⟨y, ys, rfl⟩ := hxs
    refine good_of_tile (hg _ List.mem_cons_self) fun rest hrest => ?_
    simp only [prodCheck] at hc
    split at hc
    · -- a leaf
      rename_i s hs
      split at hc
      · rename_i tok
        simp only [Bool.and_eq_true] at hc
        have e1 := eq_of_beq hc.1
        have e2 := eq_of_beq hc.2
        have hf := fits_of_matches (xs := y :: ys) (by rfl) (by rfl) hm
        cases hf with
        | t e3 hf =>
          cases hf
          rename_i u
          have hsep : tag.seps = none := by
            cases tag <;> simp [Tag.leafText] at hs <;> rfl
          have hpl : tag.isPlainList = false := by
            cases tag <;> simp [Tag.leafText] at hs <;> rfl
          have hit : (buildNode tag (placeAll [.tok u])).items c =
              [.lit s (((annotateTag c none tag []).leafText).getD s)] := by
            unfold buildNode
            simp only [hsep, hpl, Node.items, itemsOf, hs, Bool.false_eq_true, if_false]
          rw [hit]
          have hout : TokOut c u.tok (((annotateTag c none tag []).leafText).getD s) := by
            rcases leaf_out (c := c) hs with e | ⟨w, rfl, _⟩
            · rw [e, e1, e3]; exact .inl rfl
            · exfalso
              have : ∀ p ∈ prods, ∀ w, p.2.1 ≠ .charStringLiteral w := by
                intro p hp w
                have h2 : ∀ p ∈ prods, (match p.2.1 with | .charStringLiteral _ => false | _ => true) = true := by
                  decide +kernel
                have := h2 p hp
                intro e
                rw [e] at this
                cases this
              exact this _ hp _ rfl
          exact .lit (by rw [e1, e3]) hout .nil
      · cases hc
    · rename_i hs
      split at hc
      · -- a list with separators
        rename_i sps hsep
        simp only [Bool.and_eq_true] at hc
        have hfr : frame c tag = none := by
          have := frame_skel c tag
          rw [Option.isNone_iff_eq_none.mp hc.2] at this
          simpa using this
        have hsome : tag.seps.isSome = true := by rw [hsep]; rfl
        have hsh := sepShape_of_form hc.1 hm
        have := sepIs_tile (c := c) hsome hsh (a := (placeC y).span.l) (e := (placeC y).span.r) (h := [])
          (vs := rest) hg (prods_noFl _ hp (by simp [hsep]) hm) hrest
        have hit : (buildNode tag (placeAll (y :: ys))).items c =
            sepIs c tag [] (sepLocs ⟨(placeC y).span.l, (placeC y).span.l⟩ (placeAll (y :: ys))).1
              (kidItems c (y :: ys))
              (sepLocs ⟨(placeC y).span.l, (placeC y).span.l⟩ (placeAll (y :: ys))).2 := by
          unfold buildNode
          simp only [hsep, Node.items, itemsOf, setSeps_leaf, hs, setSeps_frame, hfr, setSeps_seps hsome,
            setSeps_sepIs]
          rfl
        rw [hit]
        exact this
      · rename_i hsep
        split at hc
        · -- a list without separators
          rename_i hpl
          simp only [Bool.and_eq_true] at hc
          have hfr : frame c tag = none := by
            have := frame_skel c tag
            rw [Option.isNone_iff_eq_none.mp hc.2] at this
            simpa using this
          have hnodes : ∀ z ∈ y :: ys, ∃ tag zs, z = .node tag zs := by
            intro z hz
            obtain ⟨n, hd⟩ := nodes_of_matches hc.1.2 hm _ (mem_stripAll hz)
            exact strip_derives hd
          have := plainIs0_tile (vs := rest) hg (prods_noFl _ hp (by simp [hpl]) hm) (plain_kids (c := c) hnodes)
          have hit : (buildNode tag (placeAll (y :: ys))).items c =
              plainIs0 (⟨(placeC y).span.l, (placeC y).span.l⟩ :: gapsOf (placeAll (y :: ys)))
                ((((placeAll (y :: ys)).filterMap Part.node?).map Node.tag).zip (kidItems c (y :: ys))) := by
            unfold buildNode
            simp only [hsep, hpl, Node.items, itemsOf, hs, hfr, if_true]
            rfl
          rw [hit]
          exact this
        · -- a fixed sequence
          rename_i hpl
          simp only [Bool.and_eq_true] at hc
          have hsk := eq_of_beq hc.2
          rw [← frame_skel c tag] at hsk
          cases hfr : frame c tag with
          | none => rw [hfr] at hsk; cases hsk
          | some fr =>
            rw [hfr] at hsk
            simp only [Option.map_some, Option.some.injEq] at hsk
            have hf := fits_of_matches (xs := y :: ys) hc.1.2 (prods_flOk _ hp) hm
            have hit : (buildNode tag (placeAll (y :: ys))).items c =
                fr.flatMap (slotItems (gapsOf (placeAll (y :: ys))) (kidItems c (y :: ys))) := by
              unfold buildNode
              simp only [hsep, hpl, Bool.false_eq_true, if_false, Node.items, itemsOf, hs, hfr]
              rfl
            rw [hit]
            apply Tile.of_skel
            rw [hsk]
            exact want_tile hf hg rfl rfl
  · cases xs with
    | nil => simp [stripAll] at e
    | cons y ys =>
      simp only [stripAll, Cst.node.injEq, List.cons.injEq] at e
      obtain ⟨rfl, e1, e2⟩ := e
      cases stripAll_nil e2
      obtain ⟨u, rfl, e3⟩ := strip_tok e1
      obtain ⟨hs, hsep, hpl, hch⟩ := leafTag_text hl
      refine good_of_tile (hg _ List.mem_cons_self) fun rest hrest => ?_
      have hit : (buildNode tag (placeAll [.tok u])).items c =
          [.lit (spell t) (((annotateTag c none tag []).leafText).getD (spell t))] := by
        unfold buildNode
        simp only [hsep, hpl, Node.items, itemsOf, hs, Bool.false_eq_true, if_false]
      rw [hit]
      have hout : TokOut c u.tok (((annotateTag c none tag []).leafText).getD (spell t)) := by
        rcases leaf_out (c := c) hs with e | ⟨w, e4, e5, e6⟩
        · rw [e, e3]; exact .inl rfl
        · rw [e6, e3]
          exact .inr (.inl ⟨w, hch _ e4, e5, rfl⟩)
      exact .lit (by rw [e3]) hout .nil

mutual
theorem place_good (c : Config) : ∀ (x : Cst TokL), ((∃ t, strip x = .tok t) ∨ ∃ n, Derives n (strip x)) → Good c x
  | .tok t, _ => good_tok c t
  | .node tag xs, h => by
    rcases h with ⟨t, h⟩ | ⟨n, h⟩
    · simp [strip] at h
    · refine node_good h (place_goods c xs ?_)
      rcases derives_inv h with ⟨a, tag', ss, cs, e, hp, hm⟩ | ⟨a, tag', t, e, hl⟩
      · simp only [strip, Cst.node.injEq] at e
        rw [e.2]
        exact matches_all hm
      · simp only [strip, Cst.node.injEq] at e
        rw [e.2]
        intro y hy
        exact .inl ⟨t, by simpa using hy⟩
theorem place_goods (c : Config) : ∀ (xs : List (Cst TokL)),
    (∀ y ∈ stripAll xs, (∃ t, y = .tok t) ∨ ∃ n, Derives n y) → ∀ x ∈ xs, Good c x
  | [], _, x, h => nomatch h
  | y :: ys, hy, x, h => by
    simp only [stripAll] at hy
    rcases List.mem_cons.mp h with e | h
    · rw [e]
      exact place_good c y (hy _ List.mem_cons_self)
    · exact place_goods c ys (fun z hz => hy z (List.mem_cons_of_mem _ hz)) x h
end

/-! ### Attaching positions -/

mutual
theorem attach_ok : ∀ (x : C) (ps : List TokL) (rest : List Token), ps.map (·.tok) = x.yield ++ rest →
    strip (attach x ps).1 = x ∧ ps = (attach x ps).1.yield ++ (attach x ps).2 ∧ (attach x ps).2.map (·.tok) = rest
  | .tok t, ps, rest, h => by
    cases ps with
    | nil => simp [Cst.yield] at h
    | cons p ps =>
      simp only [Cst.yield, List.map_cons, List.singleton_append, List.cons.injEq] at h
      refine ⟨by simp [attach, strip, h.1], by simp [attach, Cst.yield], by simp [attach, h.2]⟩
  | .node tag cs, ps, rest, h => by
    obtain ⟨h1, h2, h3⟩ := attachAll_ok cs ps rest (by simpa [Cst.yield] using h)
    refine ⟨by simp [attach, strip, h1], by simpa [attach, Cst.yield] using h2, by simp [attach, h3]⟩
theorem attachAll_ok : ∀ (xs : List C) (ps : List TokL) (rest : List Token), ps.map (·.tok) = Cst.yields xs ++ rest →
    stripAll (attachAll xs ps).1 = xs ∧ ps = Cst.yields (attachAll xs ps).1 ++ (attachAll xs ps).2 ∧
      (attachAll xs ps).2.map (·.tok) = rest
  | [], ps, rest, h => by
    simp only [Cst.yields, List.nil_append] at h
    exact ⟨rfl, rfl, h⟩
  | x :: xs, ps, rest, h => by
    simp only [Cst.yields, List.append_assoc] at h
    obtain ⟨h1, h2, h3⟩ := attach_ok x ps _ h
    obtain ⟨k1, k2, k3⟩ := attachAll_ok xs _ _ h3
    refine ⟨by simp [attachAll, stripAll, h1, k1], ?_, by simp [attachAll, k3]⟩
    simp only [attachAll, Cst.yields, List.append_assoc]
    rw [← k2]
    exact h2
end

/-- A block or shebang line with its tokens. -/
theorem attach_good (c : Config) {n : NT} (hn : n ≠ .fieldList) {x : C} (h : Derives n x) {ps : List TokL} {rest : List Token}
    (hp : ps.map (·.tok) = x.yield ++ rest) :
    Good c (attach x ps).1 ∧ ps = (attach x ps).1.yield ++ (attach x ps).2 ∧
      (attach x ps).2.map (·.tok) = rest ∧
      placeC (attach x ps).1 = .node (placeNode (attach x ps).1) ∧ (attach x ps).1.isFl = false := by
  obtain ⟨h1, h2, h3⟩ := attach_ok x ps rest hp
  refine ⟨place_good c _ (.inr ⟨n, by rw [h1]; exact h⟩), h2, h3, ?_, ?_⟩
  case refine_2 =>
    cases hf : (attach x ps).1.isFl with
    | false => rfl
    | true => exact absurd (derives_fields h (by rw [← h1, isFl_strip]; exact hf)) hn
  obtain ⟨tag, ys, e⟩ := strip_derives (h1 ▸ h)
  rw [e]
  rfl

/-- The items of a parsed source lead from its start to the end of the text over all tokens. -/
theorem parseLua_tile (c : Config) {src : Str} {tree : Node} (h : parseLua src = some tree) :
    ∃ (toks : List TokL) (e : TokL), lexLua src = some (toks ++ [e]) ∧ e.tok = .eof ∧
      (e.l = src.length → Tile c 0 (toks ++ [e]) (tree.items c) e.l [e]) := by
  unfold parseLua at h
  simp only [Option.bind_eq_bind, Option.bind_eq_some_iff, Option.some.injEq, Prod.exists] at h
  obtain ⟨toks, hlex, sb, b, hc, rfl⟩ := h
  obtain ⟨h1, h2, h3⟩ := parseChunk_sound hc
  have hsplit : ∃ us e, toks = us ++ [e] ∧ us.map (·.tok) = Cst.yields (sb.toList ++ b.toList) ∧ e.tok = .eof := by
    have := List.map_eq_append_iff.mp h3
    obtain ⟨us, vs, rfl, e1, e2⟩ := this
    obtain ⟨e, rfl, e3⟩ : ∃ e, vs = [e] ∧ e.tok = .eof := by
      cases vs with
      | nil => simp at e2
      | cons v vs =>
        cases vs with
        | nil => exact ⟨v, rfl, by simpa using e2⟩
        | cons w ws => simp at e2
    exact ⟨us, e, rfl, e1, e3⟩
  obtain ⟨us, e, rfl, e1, e2⟩ := hsplit
  refine ⟨us, e, hlex, e2, fun he => ?_⟩
  have hsb : ∀ x, sb = some x → Derives .sheBangLine x := by
    intro x hx
    obtain ⟨s, rfl⟩ := h1 x hx
    exact .leaf rfl
  have e1' : (us ++ [e]).map (·.tok) = Cst.yields (sb.toList ++ b.toList) ++ [.eof] := by simp [e1, e2]
  cases sb with
  | none =>
    cases b with
    | none =>
      simp only [Option.toList_none, List.append_nil, Cst.yields, List.map_eq_nil_iff] at e1
      subst e1
      simp only [placeChunk]
      rw [← he]
      exact .gap (.here .nil)
    | some x =>
      simp only [Option.toList_none, Option.toList_some, List.nil_append, Cst.yields, List.append_nil] at e1'
      obtain ⟨hg, k2, k3, k4, k5⟩ := attach_good c (by decide) (h2 _ rfl) e1'
      have hrest : (attach x (us ++ [e])).2 = [e] := by
        generalize (attach x (us ++ [e])).2 = r at k2 k3
        cases r with
        | nil => simp at k3
        | cons v vs =>
          cases vs with
          | nil => have := congrArg List.getLast? k2; simp at this; rw [this]
          | cons w ws => simp at k3
      have := hg.gap (a := 0) (hint := []) (rest := [e]) (.of_not k5) (.gap (h := []) .nil)
      rw [hrest] at k2
      rw [← k2] at this
      simp only [placeChunk]
      rw [k4] at this
      rw [← he]
      have e5 : (Node.mk Tag.chunk ⟨0, (placeNode (attach x (us ++ [e])).1).span.l⟩
        [⟨0, (placeNode (attach x (us ++ [e])).1).span.l⟩, ⟨(placeNode (attach x (us ++ [e])).1).span.r, e.l⟩]
        [placeNode (attach x (us ++ [e])).1]).items c = [.gap ⟨0, (placeNode (attach x (us ++ [e])).1).span.l⟩ []]
          ++ ((placeNode (attach x (us ++ [e])).1).items c ++
            ([.gap ⟨(placeNode (attach x (us ++ [e])).1).span.r, e.l⟩ []] ++ [])) := rfl
      rw [e5]
      simpa [Part.items, Part.span] using this
  | some s =>
    have hs := hsb s rfl
    cases b with
    | none =>
      simp only [Option.toList_none, Option.toList_some, List.append_nil, Cst.yields] at e1'
      obtain ⟨hg, k2, k3, k4, k5⟩ := attach_good c (by decide) hs e1'
      have hrest : (attach s (us ++ [e])).2 = [e] := by
        generalize (attach s (us ++ [e])).2 = r at k2 k3
        cases r with
        | nil => simp at k3
        | cons v vs =>
          cases vs with
          | nil => have := congrArg List.getLast? k2; simp at this; rw [this]
          | cons w ws => simp at k3
      have := hg.gap (a := 0) (hint := []) (rest := [e]) (.of_not k5) (.gap (h := []) .nil)
      rw [hrest] at k2
      rw [← k2] at this
      simp only [placeChunk]
      rw [k4] at this
      rw [← he]
      have e5 : (Node.mk Tag.chunk ⟨0, (placeNode (attach s (us ++ [e])).1).span.l⟩
        [⟨0, (placeNode (attach s (us ++ [e])).1).span.l⟩, ⟨(placeNode (attach s (us ++ [e])).1).span.r, e.l⟩]
        [placeNode (attach s (us ++ [e])).1]).items c = [.gap ⟨0, (placeNode (attach s (us ++ [e])).1).span.l⟩ []]
          ++ ((placeNode (attach s (us ++ [e])).1).items c ++
            ([.gap ⟨(placeNode (attach s (us ++ [e])).1).span.r, e.l⟩ []] ++ [])) := rfl
      rw [e5]
      simpa [Part.items, Part.span] using this
    | some x =>
      simp only [Option.toList_some, Cst.yields, List.append_nil, List.singleton_append, List.append_assoc] at e1'
      obtain ⟨hg, k2, k3, k4, k5⟩ := attach_good c (by decide) hs e1'
      obtain ⟨hg', l2, l3, l4, l5⟩ := attach_good c (by decide) (h2 _ rfl) k3
      have hrest : (attach x (attach s (us ++ [e])).2).2 = [e] := by
        generalize (attach x (attach s (us ++ [e])).2).2 = r at l2 l3
        rw [l2] at k2
        cases r with
        | nil => simp at l3
        | cons v vs =>
          cases vs with
          | nil => have := congrArg List.getLast? k2; simp at this; rw [this]
          | cons w ws => simp at l3
      rw [hrest] at l2
      have t2 := hg'.gap (a := (placeC (attach s (us ++ [e])).1).span.r) (hint := []) (rest := [e])
        (.of_not l5) (.gap (h := []) .nil)
      rw [← l2] at t2
      have := hg.gap (a := 0) (hint := []) (.of_not k5) t2
      rw [← k2] at this
      simp only [placeChunk]
      rw [k4, l4] at this
      rw [← he]
      generalize hn : placeNode (attach s (us ++ [e])).1 = n at this ⊢
      generalize hm : placeNode (attach x (attach s (us ++ [e])).2).1 = m at this ⊢
      have e5 : (Node.mk Tag.sheBangChunk ⟨0, n.span.l⟩
        [⟨0, n.span.l⟩, ⟨n.span.r, m.span.l⟩, ⟨m.span.r, e.l⟩] [n, m]).items c = [.gap ⟨0, n.span.l⟩ []]
          ++ (n.items c ++ ([.gap ⟨n.span.r, m.span.l⟩ []] ++ (m.items c ++ ([.gap ⟨m.span.r, e.l⟩ []] ++ [])))) := rfl
      rw [e5]
      simpa [Part.items, Part.span] using this

end Luafmt
