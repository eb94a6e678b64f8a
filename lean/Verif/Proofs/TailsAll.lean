import Verif.Proofs.SpacesAll

/-
The hints of the printer behind a gap with a comment.
-/
namespace Luafmt
open Spec

variable {c : Config}

theorem Bare.nil : Bare [] := fun _ h => nomatch h

theorem Bare.map {S : List Str} (h : Bare S) : Bare (S.map (· ++ [])) := by
  intro e he
  simp only [List.append_nil, List.map_id'] at he
  exact h e he

theorem Bare.step {S : List Str} (h : Bare S) : Bare ([] :: S.map (· ++ [])) := by
  intro e he
  rcases List.mem_cons.mp he with he | he
  · exact he
  · exact h.map e he

theorem Bare.first (h : Str) : Bare ([] :: ([] : List Str).map (· ++ h)) := by
  intro e he
  rcases List.mem_cons.mp he with he | he
  · exact he
  · cases he

/-- What must follow a part. -/
def TlCont (w : Str) (x : Cst TokL) (is : List Item) : Prop :=
  if x.isFl = true then ∀ S, Bare S → Tails w S is else Tails w [] is

/-- The hints of a part are as they should be. -/
def TlGood (c : Config) (x : Cst TokL) : Prop :=
  ∀ S is, Bare S → TlCont (tableHint c) x is → Tails (tableHint c) S ((placeC x).items c ++ is)

theorem tails_lit {w : Str} {S : List Str} {src out : Str} {is : List Item} (hS : Bare S) (h : Tails w [] is) :
    Tails w S (.lit src out :: is) := ⟨fun e he => .inl (hS e he), h⟩

theorem tlCont_cont {w : Str} {x : Cst TokL} {is : List Item} (hn : x.isFl = false) (h : Tails w [] is) : TlCont w x is := by
  unfold TlCont
  rw [hn]
  simpa using h

/-- A fixed sequence: between two gaps there is a part; `g`: a gap comes last. -/
def slotsTail : Bool → Nat → List Slot → List Sym → Bool
  | g, _, [], [] => !g
  | g, k, .gap _ _ :: S, ss => !g && slotsTail true k S ss
  | _, k, .lit _ :: S, .t _ :: ss => slotsTail false k S ss
  | _, k, .kid i :: S, .n n :: ss => i == k && n != .fieldList && slotsTail false (k + 1) S ss
  | _, _, _, _ => false

def tailsCheck (p : NT × Tag × List Sym) : Bool :=
  match p.2.1.leafText with
  | some _ => true
  | none =>
    match p.2.1.seps with
    | some _ => true
    | none =>
      if p.2.1.isPlainList || p.2.1.isTable then true
      else
        match frame Config.default p.2.1 with
        | some (.lit _ :: S) => slotsTail true 0 (.lit [] :: S) p.2.2
        | some (.kid i :: S) => slotsTail true 0 (.kid i :: S) p.2.2
        | _ => false

theorem prods_tails : ∀ p ∈ prods, tailsCheck p = true := by decide +kernel

theorem tails_gap_in {w : Str} {S : List Str} {loc : Loc} {h : Str} {is : List Item} (hT : Tails w ([] :: S.map (· ++ h)) is) :
    Tails w S (.gap loc h :: is) := .inl hT

theorem slots_tails {locs : List Loc} {ks : List (List Item)} {is : List Item} : ∀ (S : List Slot)
    {g : Bool} {k : Nat} {ss : List Sym} {xs : List (Cst TokL)} {E : List Str},
    slotsTail g k S ss = true → FitsD ss xs → (∀ x ∈ xs, TlGood c x) → ks.drop k = kidItems c xs →
    Bare E → (g = false → E = []) → Tails (tableHint c) [] is →
    Tails (tableHint c) E (S.flatMap (slotItems locs ks) ++ is) := by
  intro S
  induction S with
  | nil =>
    intro g k ss xs E hc hf hg hk hE hE' hC
    cases ss with
    | nil => cases hf; simp only [slotsTail, Bool.not_eq_true'] at hc; rw [hE' hc]; exact hC
    | cons => simp [slotsTail] at hc
  | cons s S ih =>
    intro g k ss xs E hc hf hg hk hE hE' hC
    cases s with
    | gap i h =>
      simp only [slotsTail, Bool.and_eq_true, Bool.not_eq_true'] at hc
      rw [hE' hc.1]
      exact .inl (ih hc.2 hf hg hk (.first h) (fun e => by cases e) hC)
    | extra h => simp [slotsTail] at hc
    | lit w =>
      cases hf with
      | nil => simp [slotsTail] at hc
      | n => simp [slotsTail] at hc
      | @t tok t ss xs e hf =>
        simp only [slotsTail] at hc
        refine tails_lit hE ?_
        refine ih hc hf (fun x hx => hg x (List.mem_cons_of_mem _ hx)) ?_ .nil (fun _ => rfl) hC
        rw [hk]; simp [kidItems, placeAll, placeC, Part.node?, List.filterMap_cons]
    | kid i =>
      cases hf with
      | nil => simp [slotsTail] at hc
      | t => simp [slotsTail] at hc
      | @n n x ss xs hd hf =>
        simp only [slotsTail, Bool.and_eq_true, bne_iff_ne, ne_eq] at hc
        obtain ⟨⟨hi, hnf⟩, h2⟩ := hc
        have hi := eq_of_beq hi
        subst hi
        obtain ⟨tag, ys, rfl⟩ := strip_derives hd
        have hk0 : ks.drop i = (placeC (.node tag ys)).items c :: kidItems c xs := by
          rw [hk]; simp [kidItems, placeAll, placeC, Part.node?, Node.itemsAll, Part.items]
        have hk1 : ks[i]?.getD [] = (placeC (.node tag ys)).items c := by
          have := congrArg List.head? hk0
          simp only [List.head?_drop, List.head?_cons] at this
          simp [this]
        have hk2 : ks.drop (i + 1) = kidItems c xs := by
          have := congrArg List.tail hk0
          simpa [List.tail_drop] using this
        simp only [List.flatMap_cons, slotItems, hk1, List.append_assoc]
        refine hg _ List.mem_cons_self E _ hE ?_
        unfold TlCont
        split
        · next hfl => exact absurd (derives_fields hd (by rw [isFl_strip]; exact hfl)) hnf
        · exact ih h2 hf (fun x hx => hg x (List.mem_cons_of_mem _ hx)) hk2 .nil (fun _ => rfl) hC

/-! ### Lists -/

theorem sepIs_tails {tag : Tag} {xs : List (Cst TokL)} (hs : SepShape tag xs) : ∀ {S : List Str} {h : Str} {pre : Loc} {is : List Item},
    Bare ([] :: S.map (· ++ h)) → (∀ x ∈ xs, TlGood c x) → (∀ x ∈ xs, x.isFl = false) →
    (if tag.isFields = true then ∀ S, Bare S → Tails (tableHint c) S is else Tails (tableHint c) [] is) →
    Tails (tableHint c) S (sepIs c tag h (sepLocs pre (placeAll xs)).1 (kidItems c xs) (sepLocs pre (placeAll xs)).2 ++ is) := by
  induction hs with
  | one t ys =>
    intro S h pre is hS hg hn hC
    have := hg _ List.mem_cons_self _ ([.gap ⟨(placeC (.node t ys)).span.r, (placeC (.node t ys)).span.r⟩ [],
      .trail tag.isFields [] ((separator c tag).getD [])] ++ is) hS (tlCont_cont (hn _ List.mem_cons_self) (by
        refine .inr ⟨⟨fun h => h, rfl, rfl⟩, ?_⟩
        show Tails (tableHint c) _ (.trail tag.isFields [] ((separator c tag).getD []) :: is)
        cases hf : tag.isFields with
        | false => rw [hf] at hC; simpa [Tails] using hC
        | true =>
          rw [hf] at hC
          have hC : ∀ S, Bare S → Tails (tableHint c) S is := by simpa using hC
          exact ⟨.nil, hC _ .nil, hC _ .nil⟩))
    have this := tails_gap_in (loc := pre) this
    simpa [placeAll, sepLocs, kidItems, placeC, Part.node?, Node.itemsAll, sepIs, Part.items] using this
  | trail t ys s hf hsep =>
    intro S h pre is hS hg hn hC
    rw [if_pos hf] at hC
    have hsp : sepText s.tok = spell s.tok := by
      rcases isFieldSep_cases hsep with e | e
      · exact sepText_spell (.inl e)
      · exact sepText_spell (.inr (.inl e))
    have := hg _ List.mem_cons_self _ ([.gap ⟨(placeC (.node t ys)).span.r, s.l⟩ [],
      .trail true (spell s.tok) ((separator c tag).getD (spell s.tok))] ++ is) hS (tlCont_cont (hn _ List.mem_cons_self)
        (by exact .inl ⟨Bare.first [], hC _ (.first []), hC _ .nil⟩))
    have this := tails_gap_in (loc := pre) this
    simpa [placeAll, sepLocs, kidItems, placeC, Part.node?, Node.itemsAll, sepIs, Part.items, List.filterMap_cons, hsp, hf,
      Part.span] using this
  | cons t ys s xs hsep hsh ih =>
    intro S h pre is hS hg hn hC
    have hsp : sepText s.tok = spell s.tok := by
      rcases hsep with e | ⟨_, e⟩
      · rcases sepTok_cases tag with e' | e'
        · exact sepText_spell (.inl (e.trans e'))
        · exact sepText_spell (.inr (.inr (e.trans e')))
      · rcases isFieldSep_cases e with e | e
        · exact sepText_spell (.inl e)
        · exact sepText_spell (.inr (.inl e))
    obtain ⟨y, ys', rfl⟩ := sepShape_ne hsh
    have hne := fun pre => sepIs_ne (c := c) (h := elementHint tag) (pre := pre) hsh
    have hhead : ∃ t0 zs, y = .node t0 zs := by cases hsh <;> exact ⟨_, _, rfl⟩
    obtain ⟨t0, zs, rfl⟩ := hhead
    have ih' := ih (S := []) (h := elementHint tag) (pre := ⟨s.r, (placeC (.node t0 zs)).span.l⟩) (is := is) (.first _)
      (fun x hx => hg x (List.mem_cons_of_mem _ (List.mem_cons_of_mem _ hx)))
      (fun x hx => hn x (List.mem_cons_of_mem _ (List.mem_cons_of_mem _ hx))) hC
    have := hg _ List.mem_cons_self _ ([.gap ⟨(placeC (.node t ys)).span.r, s.l⟩ [],
      .lit (spell s.tok) ((separator c tag).getD (spell s.tok))] ++
        (sepIs c tag (elementHint tag) (sepLocs ⟨s.r, (placeC (.node t0 zs)).span.l⟩ (placeAll (.node t0 zs :: ys'))).1
          (kidItems c (.node t0 zs :: ys')) (sepLocs ⟨s.r, (placeC (.node t0 zs)).span.l⟩ (placeAll (.node t0 zs :: ys'))).2 ++ is))
      hS (tlCont_cont (hn _ List.mem_cons_self) (by exact .inl (tails_lit (src := spell s.tok) (Bare.first []) ih')))
    have this := tails_gap_in (loc := pre) this
    have hne := hne ⟨s.r, (placeC (.node t0 zs)).span.l⟩
    simp only [placeAll, sepLocs, kidItems, placeC, Part.node?, Node.itemsAll, sepIs, Cst.yields, Cst.yield,
      Part.items, Part.span, List.filterMap_cons, hsp, List.cons_append, List.append_assoc, List.nil_append] at this hne ⊢
    rw [hne]
    simpa using this

theorem plainIs_tails {is : List Item} {xs : List (Cst TokL)} : ∀ {p : Part},
    (∀ x ∈ xs, TlGood c x) → (∀ x ∈ xs, x.isFl = false) → (∀ x ∈ xs, ∃ t ys, x = .node t ys) → Tails (tableHint c) [] is →
    Tails (tableHint c) [] (plainIs (gapsOf (p :: placeAll xs))
      ((((placeAll xs).filterMap Part.node?).map Node.tag).zip (kidItems c xs)) ++ is) := by
  induction xs with
  | nil => intro p _ _ _ hC; exact hC
  | cons x xs ih =>
    intro p hg hn hd hC
    obtain ⟨tag, ys, rfl⟩ := hd _ List.mem_cons_self
    have := hg _ List.mem_cons_self _
      (plainIs (gapsOf (placeC (.node tag ys) :: placeAll xs))
      ((((placeAll xs).filterMap Part.node?).map Node.tag).zip (kidItems c xs)) ++ is)
      (Bare.first (itemHint (buildNode tag (placeAll ys)).tag))
      (tlCont_cont (hn _ List.mem_cons_self) (ih (fun x hx => hg x (List.mem_cons_of_mem _ hx))
        (fun x hx => hn x (List.mem_cons_of_mem _ hx)) (fun x hx => hd x (List.mem_cons_of_mem _ hx)) hC))
    have this := tails_gap_in (loc := ⟨p.span.r, (placeC (.node tag ys)).span.l⟩) this
    simpa [placeAll, gapsOf, placeC, Part.node?, kidItems, Node.itemsAll, plainIs, Part.items] using this

theorem plainIs0_tails {is : List Item} {x : Cst TokL} {xs : List (Cst TokL)} {l0 : Nat} {S : List Str} (hS : Bare S)
    (hg : ∀ y ∈ x :: xs, TlGood c y) (hn : ∀ y ∈ x :: xs, y.isFl = false) (hd : ∀ y ∈ x :: xs, ∃ t ys, y = .node t ys)
    (hC : Tails (tableHint c) [] is) :
    Tails (tableHint c) S (plainIs0 (⟨l0, l0⟩ :: gapsOf (placeAll (x :: xs)))
      ((((placeAll (x :: xs)).filterMap Part.node?).map Node.tag).zip (kidItems c (x :: xs))) ++ is) := by
  obtain ⟨tag, ys, rfl⟩ := hd _ List.mem_cons_self
  have := hg _ List.mem_cons_self _
    (plainIs (gapsOf (placeC (.node tag ys) :: placeAll xs))
    ((((placeAll xs).filterMap Part.node?).map Node.tag).zip (kidItems c xs)) ++ is)
    (hS.step)
    (tlCont_cont (hn _ List.mem_cons_self) (plainIs_tails (fun x hx => hg x (List.mem_cons_of_mem _ hx))
      (fun x hx => hn x (List.mem_cons_of_mem _ hx)) (fun x hx => hd x (List.mem_cons_of_mem _ hx)) hC))
  have this := tails_gap_in (loc := ⟨l0, l0⟩) (h := []) (by simpa using this)
  simpa [placeAll, gapsOf, placeC, Part.node?, kidItems, Node.itemsAll, plainIs0, Part.items] using this

/-! ### Nodes -/

theorem node_tails {n : NT} {tag : Tag} {xs : List (Cst TokL)}
    (h : Derives n (.node tag (stripAll xs))) (hg : ∀ x ∈ xs, TlGood c x) : TlGood c (.node tag xs) := by
  intro S is hS hC
  rcases derives_inv h with ⟨a, tag', ss, cs, e, hp, hm⟩ | ⟨a, tag', t, e, hl⟩
  · cases e
    have hc := prods_checked _ hp
    have hne := (prods_firsts _ hp).1
    have hxs : ∃ y ys, xs = y :: ys := by
      cases xs with
      | cons y ys => exact ⟨y, ys, rfl⟩
      | nil =>
        simp only [stripAll] at hm
        cases hm
        exact absurd rfl hne
    obtain ⟨y, ys, rfl⟩ := hxs
    show Tails (tableHint c) S ((buildNode tag (placeAll (y :: ys))).items c ++ is)
    have hfl : tag.isFields = false → Tails (tableHint c) [] is := by
      intro e
      unfold TlCont at hC
      rw [if_neg (by simp [Cst.isFl, e])] at hC
      exact hC
    have hck := prods_spaces _ hp
    have hck' := prods_tails _ hp
    simp only [spacesCheck] at hck
    simp only [tailsCheck] at hck'
    simp only [prodCheck] at hc
    split at hc
    · -- a leaf
      rename_i s hs
      split at hc
      · rename_i tok
        have hf := fits_of_matches (xs := y :: ys) (by rfl) (by rfl) hm
        cases hf with
        | t e3 hf =>
          cases hf
          rename_i u
          have hsep : tag.seps = none := by
            cases tag <;> simp [Tag.leafText] at hs <;> rfl
          have hpl : tag.isPlainList = false := by
            cases tag <;> simp [Tag.leafText] at hs <;> rfl
          have hfi : tag.isFields = false := by
            cases tag <;> simp [Tag.leafText] at hs <;> rfl
          have hit : (buildNode tag (placeAll [.tok u])).items c =
              [.lit s (((annotateTag c none tag []).leafText).getD s)] := by
            unfold buildNode
            simp only [hsep, hpl, Node.items, itemsOf, hs, Bool.false_eq_true, if_false]
          rw [hit]
          exact tails_lit hS (hfl hfi)
      · cases hc
    · rename_i hs
      split at hc
      · -- a list with separators
        rename_i sps hsep
        simp only [Bool.and_eq_true] at hc
        have hfr : frame c tag = none := by
          have := frame_skel c tag
          rw [Option.isNone_iff_eq_none.mp hc.2] at this
          simpa using this
        have hsome : tag.seps.isSome = true := by rw [hsep]; rfl
        have hsh := sepShape_of_form hc.1 hm
        have := sepIs_tails (c := c) hsh (S := S) (h := []) (pre := ⟨(placeC y).span.l, (placeC y).span.l⟩)
          (is := is) (hS.step) hg
          (prods_noFl _ hp (by simp [hsep]) hm) (by
            split
            · next hf =>
              unfold TlCont at hC
              rw [if_pos (show (Cst.node tag (y :: ys)).isFl = true from hf)] at hC
              exact hC
            · next hf => exact hfl (by simpa using hf))
        have hit : (buildNode tag (placeAll (y :: ys))).items c =
            sepIs c tag [] (sepLocs ⟨(placeC y).span.l, (placeC y).span.l⟩ (placeAll (y :: ys))).1
              (kidItems c (y :: ys))
              (sepLocs ⟨(placeC y).span.l, (placeC y).span.l⟩ (placeAll (y :: ys))).2 := by
          unfold buildNode
          simp only [hsep, Node.items, itemsOf, setSeps_leaf, hs, setSeps_frame, hfr, setSeps_seps hsome,
            setSeps_sepIs]
          rfl
        rw [hit]
        exact this
      · rename_i hsep
        split at hc
        · -- a list without separators
          rename_i hpl
          simp only [Bool.and_eq_true] at hc
          have hfr : frame c tag = none := by
            have := frame_skel c tag
            rw [Option.isNone_iff_eq_none.mp hc.2] at this
            simpa using this
          have hnodes : ∀ z ∈ y :: ys, ∃ t zs, z = .node t zs := by
            intro z hz
            obtain ⟨n, hd⟩ := nodes_of_matches hc.1.2 hm _ (mem_stripAll hz)
            exact strip_derives hd
          have hfi : tag.isFields = false := by
            cases tag <;> simp [Tag.isPlainList] at hpl <;> rfl
          have := plainIs0_tails (c := c) (l0 := (placeC y).span.l) hS hg
            (prods_noFl _ hp (by simp [hpl]) hm) hnodes (hfl hfi)
          have hit : (buildNode tag (placeAll (y :: ys))).items c =
              plainIs0 (⟨(placeC y).span.l, (placeC y).span.l⟩ :: gapsOf (placeAll (y :: ys)))
                ((((placeAll (y :: ys)).filterMap Part.node?).map Node.tag).zip (kidItems c (y :: ys))) := by
            unfold buildNode
            simp only [hsep, hpl, Node.items, itemsOf, hs, hfr, if_true]
            rfl
          rw [hit]
          exact this
        · -- a fixed sequence
          rename_i hpl
          simp only [Bool.and_eq_true] at hc
          have hsk := eq_of_beq hc.2
          rw [← frame_skel c tag] at hsk
          have hpl : tag.isPlainList = false := by simpa using hpl
          have hfi : tag.isFields = false := by
            cases tag <;> simp [Tag.seps] at hsep <;> rfl
          simp only [hs, hsep, hpl, Bool.false_eq_true, if_false] at hck
          simp only [hs, hsep, hpl, Bool.false_or] at hck'
          cases hfr : frame c tag with
          | none => rw [hfr] at hsk; cases hsk
          | some fr =>
            have hit : (buildNode tag (placeAll (y :: ys))).items c =
                fr.flatMap (slotItems (gapsOf (placeAll (y :: ys))) (kidItems c (y :: ys))) := by
              unfold buildNode
              simp only [hsep, hpl, Bool.false_eq_true, if_false, Node.items, itemsOf, hs, hfr]
              rfl
            rw [hit]
            have hfd := fitsD_of_matches hc.1.2 hm
            by_cases htab : tag.isTable = true
            · -- a table
              rw [if_pos htab] at hck
              simp only [Bool.or_eq_true, Bool.and_eq_true, beq_iff_eq, bne_iff_ne, ne_eq] at hck
              have hclose : ∀ E g, Bare E → Tails (tableHint c) E (.gap g (tableHint c) :: .lit ['}'] ['}'] :: is) := by
                intro E g hE
                refine tails_gap_in ⟨fun e he => ?_, hfl hfi⟩
                rcases List.mem_cons.mp he with he | he
                · exact .inl he
                · right
                  obtain ⟨e', h1, rfl⟩ := List.mem_map.mp he
                  rw [hE e' h1]
                  exact ⟨.inr rfl, rfl⟩
              rcases hck with ⟨rfl, hne'⟩ | ⟨rfl, rfl⟩
              · have hfr' : fr = [.extra (tableHint c), .lit ['{'], .gap 0 (tableHint c), .kid 0, .gap 1 (tableHint c), .lit ['}']] := by
                  cases tag <;> simp [Tag.isTable] at htab hne'
                  cases hfr
                  rfl
                subst hfr'
                generalize hgo : gapsOf (placeAll (y :: ys)) = gs
                cases hfd with
                | @t _ u _ _ e1 hfd =>
                  cases hfd with
                  | @n _ x _ _ hd hfd =>
                    cases hfd with
                    | @t _ v _ _ e2 hfd =>
                      cases hfd
                      obtain ⟨tag2, ys2, rfl⟩ := strip_derives hd
                      have hki : kidItems c [.tok u, .node tag2 ys2, .tok v] = [(placeC (.node tag2 ys2)).items c] := by
                        simp [kidItems, placeAll, placeC, Part.node?, Node.itemsAll, Part.items, List.filterMap_cons]
                      rw [hki]
                      simp only [List.flatMap_cons, List.flatMap_nil, slotItems, List.getElem?_cons_zero, Option.getD_some,
                        List.cons_append, List.nil_append, List.append_assoc]
                      refine ⟨fun e he => ?_, ?_⟩
                      · rcases List.mem_cons.mp he with he | he
                        · exact .inl he
                        · right
                          obtain ⟨e', h1, rfl⟩ := List.mem_map.mp he
                          rw [hS e' h1]
                          exact ⟨.inl rfl, rfl⟩
                      · refine tails_gap_in (hg (.node tag2 ys2) (by simp) _ _ (.first _) ?_)
                        unfold TlCont
                        split
                        · intro E hE; exact hclose E _ hE
                        · exact hclose [] _ .nil
              · have hfr' : fr = [.lit ['{'], .gap 0 (tableHint c), .lit ['}']] := by
                  cases hfr
                  rfl
                subst hfr'
                simp only [List.flatMap_cons, List.flatMap_nil, slotItems, List.append_nil, List.cons_append, List.nil_append]
                exact tails_lit hS (hclose [] _ .nil)
            · rw [if_neg htab] at hck'
              have hfr0 : frame Config.default tag = some fr := by
                rw [← hfr]
                cases tag <;> first | rfl | (simp [Tag.isTable] at htab)
              rw [hfr0] at hck'
              cases fr with
              | nil => cases hck'
              | cons s fr =>
                cases s with
                | lit w =>
                  refine slots_tails (g := true) (.lit w :: fr) (k := 0) (by
                    revert hck'
                    cases ss with
                    | nil => exact id
                    | cons s ss => cases s <;> exact id) hfd hg rfl hS (fun e => by cases e) (hfl hfi)
                | kid i => exact slots_tails (.kid i :: fr) hck' hfd hg rfl hS (fun e => by cases e) (hfl hfi)
                | gap => cases hck'
                | extra => cases hck'
  · cases xs with
    | nil => simp [stripAll] at e
    | cons y ys =>
      simp only [stripAll, Cst.node.injEq, List.cons.injEq] at e
      obtain ⟨rfl, e1, e2⟩ := e
      cases stripAll_nil e2
      obtain ⟨u, rfl, e3⟩ := strip_tok e1
      obtain ⟨hs, hsep, hpl, hch⟩ := leafTag_text hl
      have hfi : tag.isFields = false := by
        cases tag <;> simp [Tag.leafText] at hs <;> rfl
      have hit : (buildNode tag (placeAll [.tok u])).items c =
          [.lit (spell t) (((annotateTag c none tag []).leafText).getD (spell t))] := by
        unfold buildNode
        simp only [hsep, hpl, Node.items, itemsOf, hs, Bool.false_eq_true, if_false]
      show Tails (tableHint c) S ((buildNode tag (placeAll [.tok u])).items c ++ is)
      rw [hit]
      refine tails_lit hS ?_
      unfold TlCont at hC
      rw [if_neg (by simp [Cst.isFl, hfi])] at hC
      exact hC

theorem tlGood_tok (t : TokL) : TlGood c (.tok t) := by
  intro S is hS hC
  exact tails_lit hS hC

mutual
theorem place_tails (c : Config) : ∀ (x : Cst TokL), ((∃ t, strip x = .tok t) ∨ ∃ n, Derives n (strip x)) → TlGood c x
  | .tok t, _ => tlGood_tok t
  | .node tag xs, h => by
    rcases h with ⟨t, h⟩ | ⟨n, h⟩
    · simp [strip] at h
    · refine node_tails h (place_tailss c xs ?_)
      rcases derives_inv h with ⟨a, tag', ss, cs, e, hp, hm⟩ | ⟨a, tag', t, e, hl⟩
      · simp only [strip, Cst.node.injEq] at e
        rw [e.2]
        exact matches_all hm
      · simp only [strip, Cst.node.injEq] at e
        rw [e.2]
        intro y hy
        exact .inl ⟨t, by simpa using hy⟩
theorem place_tailss (c : Config) : ∀ (xs : List (Cst TokL)),
    (∀ y ∈ stripAll xs, (∃ t, y = .tok t) ∨ ∃ n, Derives n y) → ∀ x ∈ xs, TlGood c x
  | [], _, x, h => nomatch h
  | y :: ys, hy, x, h => by
    simp only [stripAll] at hy
    rcases List.mem_cons.mp h with e | h
    · rw [e]
      exact place_tails c y (hy _ List.mem_cons_self)
    · exact place_tailss c ys (fun z hz => hy z (List.mem_cons_of_mem _ hz)) x h
end

/-! ### Chunks -/

theorem attach_tails (c : Config) {n : NT} {x : C} (h : Derives n x) {ps : List TokL} {rest : List Token}
    (hp : ps.map (·.tok) = x.yield ++ rest) : TlGood c (attach x ps).1 :=
  place_tails c _ (.inr ⟨n, by rw [(attach_ok x ps rest hp).1]; exact h⟩)

/-- The hints of a parsed source behind gaps are as they should be. -/
theorem parseLua_tails (c : Config) {src : Str} {tree : Node} (h : parseLua src = some tree)
    {toks : List TokL} {e : TokL} (hlex : lexLua src = some (toks ++ [e])) : Tails (tableHint c) [] (tree.items c) := by
  unfold parseLua at h
  simp only [Option.bind_eq_bind, Option.bind_eq_some_iff, Option.some.injEq, Prod.exists] at h
  obtain ⟨toks', hlex', sb, b, hc, rfl⟩ := h
  rw [hlex] at hlex'
  cases hlex'
  obtain ⟨h1, h2, h3⟩ := parseChunk_sound hc
  have hsb : ∀ x, sb = some x → Derives .sheBangLine x := by
    intro x hx
    obtain ⟨s, rfl⟩ := h1 x hx
    exact .leaf rfl
  generalize toks ++ [e] = us at h3
  cases sb with
  | none =>
    cases b with
    | none => exact .inl (.inl (Bare.first []).step)
    | some x =>
      simp only [Option.toList_none, Option.toList_some, List.nil_append, Cst.yields, List.append_nil] at h3
      have hg := attach_tails c (h2 _ rfl) h3
      obtain ⟨_, k2, k3, k4, k5⟩ := attach_good c (by decide) (h2 _ rfl) h3
      have := hg _ [.gap ⟨(placeNode (attach x us).1).span.r, src.length⟩ []]
        (Bare.first []) (tlCont_cont (by simp [k5]) (by exact .inl (Bare.first [])))
      rw [k4] at this
      exact .inl this
  | some s =>
    have hs := hsb s rfl
    cases b with
    | none =>
      simp only [Option.toList_none, Option.toList_some, List.append_nil, Cst.yields] at h3
      have hg := attach_tails c hs h3
      obtain ⟨_, k2, k3, k4, k5⟩ := attach_good c (by decide) hs h3
      have := hg _ [.gap ⟨(placeNode (attach s us).1).span.r, src.length⟩ []]
        (Bare.first []) (tlCont_cont (by simp [k5]) (by exact .inl (Bare.first [])))
      rw [k4] at this
      exact .inl this
    | some x =>
      simp only [Option.toList_some, Cst.yields, List.append_nil, List.singleton_append, List.append_assoc] at h3
      have hg := attach_tails c hs h3
      obtain ⟨_, k2, k3, k4, k5⟩ := attach_good c (by decide) hs h3
      have hg' := attach_tails c (h2 _ rfl) k3
      obtain ⟨_, l2, l3, l4, l5⟩ := attach_good c (by decide) (h2 _ rfl) k3
      have := hg _ (.gap ⟨(placeNode (attach s us).1).span.r, (placeNode (attach x (attach s us).2).1).span.l⟩ [] ::
        ((placeC (attach x (attach s us).2).1).items c ++
        [.gap ⟨(placeNode (attach x (attach s us).2).1).span.r, src.length⟩ []]))
        (Bare.first []) (tlCont_cont (by simp [k5])
          (by exact .inl (hg' _ _ (Bare.first []) (tlCont_cont (by simp [l5]) (by exact .inl (Bare.first []))))))
      rw [k4, l4] at this
      exact .inl this

end Luafmt
