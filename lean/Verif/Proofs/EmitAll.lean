import Verif.Proofs.Emit

/-
The main theorem about the printer: writing a node renders its items.
-/
namespace Luafmt

variable {L : Prop}

/-! ### Operators and tables -/

theorem dec_inc (op : Str) (st : St) : El.dec.eff (incIndent (some op) st).ctx = st.ctx := by
  simp only [El.eff, incIndent, St.ctx, Prod.mk.injEq, List.tail_cons, List.head?_cons, and_true]
  by_cases h : st.stack.head? = some (some op)
  · simp [h]
  · have h' : (st.stack.head? != some (some op)) = true := by simpa [bne_iff_ne] using h
    simp [h', Int.add_sub_cancel]

theorem binaryW_ok {env : Env} {c c' : Config} (hv : Variant c c') {locs : List Loc} {rs : List R}
    {ks : List (List Item)} (hk : Kids L env c rs ks) {op : Str} {st st' : St}
    (h : binaryW env op locs rs c' st = .ok st') :
    st'.ctx = st.ctx ∧ Emits L env c
      (([.kid 0, .gap 0 [' '], .lit op, .gap 1 [' '], .kid 1] : List Slot).flatMap (slotItems locs ks)) st.f st'.f := by
  simp only [binaryW, Res.bind_eq_ok] at h
  obtain ⟨st1, h1, h⟩ := h
  obtain ⟨e1, g1⟩ := kid_ok hv hk h1
  have hex : ∃ st2 one, Same st1 st2 ∧ runAll (runEl env locs rs c')
      [.nl (decide (c'.num .newlineFormatBinaryOp = some 1) && !one) 0 [' '], .lit op,
       .nl (decide (c'.num .newlineFormatBinaryOp = some 2) && !one) 1 [' '], .kid 1, .dec] st2 = .ok st' := by
    split at h
    · simp only [Res.bind_eq_ok, Res.pure_eq] at h
      obtain ⟨⟨a, b⟩, ha, x, hx, hb⟩ := h
      cases hx
      exact ⟨_, _, (testOneline_ok ha).1, hb⟩
    · exact ⟨st1, false, .refl _, h⟩
  obtain ⟨st2, one, hs, h3⟩ := hex
  obtain ⟨e3, g3⟩ := runEls_ok hv hk (by
    simp only [List.forall_mem_cons, El.ok, true_and, List.not_mem_nil, false_implies, implies_true, and_true,
      Bool.and_eq_true, decide_eq_true_eq]
    exact ⟨fun h => nlOpt_of_eq h.1, fun h => nlOpt_of_eq h.1⟩) h3
  rw [hs.1] at g3
  refine ⟨?_, ?_⟩
  · rw [e3]
    simp only [List.foldl_cons, List.foldl_nil, hs.2, e1]
    exact dec_inc op st
  · have g1' : Emits L env c (ks[0]?.getD []) st.f st1.f := g1
    have := g1'.append g3
    simpa [slotItems, El.slots] using this

theorem tableW_ok {env : Env} {c c' : Config} (hv : Variant c c') {locs : List Loc} {rs : List R}
    {ks : List (List Item)} (hk : Kids L env c rs ks) {iv single : Option Bool} {span : Loc} {st st' : St}
    (h : tableW env iv single span locs rs c' st = .ok st') :
    st'.ctx = st.ctx ∧ Emits L env c
      (([.extra (tableHint c), .lit ['{'], .gap 0 (tableHint c), .kid 0, .gap 1 (tableHint c), .lit ['}']] :
        List Slot).flatMap (slotItems locs ks)) st.f st'.f := by
  have hh : (c'.str .hintTableConstructor).getD [] = tableHint c := by rw [← hv.tableHint]; rfl
  simp only [tableW, Res.bind_eq_ok, hh] at h
  obtain ⟨st1, h1, h⟩ := h
  obtain ⟨e1, g1⟩ := nlW_ok hv h1 (fun hb => id (hv.nlOpt (.inr (.inr (.inl (by
    simp only [Bool.and_eq_true, decide_eq_true_eq] at hb; exact hb.1))))))
  cases hk with
  | nil => simp at h
  | @cons r is rs ks hr hk =>
    simp only [List.getElem?_cons_zero] at h
    have hex : ∃ st2 ind, Same { st1.put ['{'] with fn := st1.fn + 1 } st2 ∧ ∃ st3,
        hintW env c' (locAt locs 0) (tableHint c)
          (if ind = true then
            incIndent none
              (match r.node.tag with
              | Tag.fields _ _ _ =>
                { st2 with cells := { st2.cells with indent := upd st2.cells.indent r.node.span.l ind } }
              | _ => st2)
          else
            match r.node.tag with
            | Tag.fields _ _ _ =>
              { st2 with cells := { st2.cells with indent := upd st2.cells.indent r.node.span.l ind } }
            | _ => st2) = .ok st3 ∧ ∃ st4, r.w c' st3 = .ok st4 ∧ ∃ st5,
        nlW env c'
          ((decide (c'.num NOpt.newlineFormatTableConstructor = some 1) ||
              match c'.num NOpt.maxWidth with
              | some m => decide (m ≤ lenAfterNewline st4.f)
              | none => false) && ind)
          (locAt locs 1) (tableHint c)
          { (if ind = true then decIndent st4 else st4) with
            fn := (if ind = true then decIndent st4 else st4).fn - 1 } = .ok st5 ∧
        .ok (st5.put ['}']) = Res.ok st' := by
      split at h
      · simp only [Res.bind_eq_ok, Res.pure_eq] at h
        obtain ⟨⟨a, b⟩, ha, st3, h3, st4, h4, st5, h5, h6⟩ := h
        exact ⟨a, b, testIndent_same ha, st3, h3, st4, h4, st5, h5, h6⟩
      · simp only [Res.bind_eq_ok, Res.pure_eq] at h
        obtain ⟨⟨a, b⟩, ha, st3, h3, st4, h4, st5, h5, h6⟩ := h
        cases ha
        exact ⟨_, _, .refl _, st3, h3, st4, h4, st5, h5, h6⟩
    obtain ⟨st2, ind, hs2, st3, h3, st4, h4, st5, h5, h6⟩ := hex
    generalize hst : (match r.node.tag with
      | .fields _ _ _ => { st2 with cells := { st2.cells with indent := upd st2.cells.indent r.node.span.l ind } }
      | _ => st2) = st2' at h3
    have hs2' : Same st2 st2' := by
      rw [← hst]; split <;> exact ⟨rfl, rfl⟩
    obtain ⟨e3, g3⟩ := hintW_ok hv h3
    obtain ⟨e4, g4⟩ := hr _ _ _ hv h4
    obtain ⟨e5, g5⟩ := nlW_ok hv h5 (fun hb => id (hv.nlOpt (by
      simp only [Bool.and_eq_true, Bool.or_eq_true, decide_eq_true_eq] at hb
      rcases hb.1 with hb | hb
      · exact nlOpt_of_eq hb
      · cases hm : c'.num .maxWidth with
        | none => rw [hm] at hb; cases hb
        | some m => exact nlOpt_of_eq hm)))
    cases h6
    have hs := hs2.trans hs2'
    have hctx : st2'.ctx = (st.ctx.1, st.ctx.2.1, st.ctx.2.2 + 1) := by
      rw [hs.2]
      have : ({ st1.put ['{'] with fn := st1.fn + 1 } : St).ctx = (st1.ctx.1, st1.ctx.2.1, st1.ctx.2.2 + 1) := rfl
      rw [this, e1]
    have hf : st2'.f = st1.f ++ ['{'] := hs.1
    have hctx4 : (if ind = true then decIndent st4 else st4).ctx = (st.ctx.1, st.ctx.2.1, st.ctx.2.2 + 1) := by
      cases ind with
      | false =>
        simp only [Bool.false_eq_true, if_false] at e3 ⊢
        rw [e4, e3, hctx]
      | true =>
        simp only [if_true] at e3 ⊢
        have : st4.ctx = (st.ctx.1 + 1, none :: st.ctx.2.1, st.ctx.2.2 + 1) := by
          rw [e4, e3]
          simp only [St.ctx, Prod.mk.injEq] at hctx
          simp [St.ctx, incIndent, hctx.1, hctx.2.1, hctx.2.2]
        simp only [St.ctx, Prod.mk.injEq] at this
        simp only [St.ctx, decIndent, this.1, this.2.1, this.2.2]
        simp [Int.add_sub_cancel]
    have hf4 : (if ind = true then decIndent st4 else st4).f = st4.f := by cases ind <;> rfl
    have hf3 : (if ind = true then incIndent none st2' else st2').f = st1.f ++ ['{'] := by cases ind <;> exact hf
    refine ⟨?_, ?_⟩
    · have : (st5.put ['}']).ctx = st5.ctx := rfl
      rw [this, e5]
      simp only [St.ctx, Prod.mk.injEq] at hctx4 ⊢
      exact ⟨hctx4.1, hctx4.2.1, by rw [hctx4.2.2]; simp [Int.add_sub_cancel]⟩
    · simp only [List.flatMap_cons, slotItems, List.flatMap_nil, List.append_nil, List.cons_append, List.nil_append,
        List.getElem?_cons_zero, Option.getD_some]
      refine .extra g1 (.lit ?_)
      rw [hf3] at g3
      refine .gap g3 (g4.append ?_)
      have g5' : PlainStep env c (locAt locs 1) (tableHint c) st4.f st5.f := by
        have : ({ (if ind = true then decIndent st4 else st4) with
            fn := (if ind = true then decIndent st4 else st4).fn - 1 } : St).f = st4.f := hf4
        rw [← this]; exact g5
      exact .gap g5' (.lit .nil)

theorem tableEmptyW_ok {env : Env} {c c' : Config} (hv : Variant c c') {locs : List Loc} {st st' : St}
    {ks : List (List Item)} (h : tableEmptyW env locs c' st = .ok st') :
    st'.ctx = st.ctx ∧ Emits L env c
      (([.lit ['{'], .gap 0 (tableHint c), .lit ['}']] : List Slot).flatMap (slotItems locs ks)) st.f st'.f := by
  have hh : (c'.str .hintTableConstructor).getD [] = tableHint c := by rw [← hv.tableHint]; rfl
  simp only [tableEmptyW, Res.bind_eq_ok, hh] at h
  obtain ⟨t, ht, st1, h1, h2⟩ := h
  rw [hv.commentHint] at ht
  obtain ⟨e1, g1⟩ := nlW_gap hv h1 (fun hb => .inr ⟨t, ht, hb⟩)
  cases h2
  exact ⟨e1, .emptyTable g1 .nil⟩

/-! ### Arms -/

theorem variant_template {c c' : Config} (_ : Variant c c') (t : Tag) :
    (t.template c').map (·.flatMap Fm.slots) = (t.template c).map (·.flatMap Fm.slots) := by
  cases t <;> rfl

theorem plainW_ok {env : Env} {c : Config} {t : Tag} {span : Loc} {locs : List Loc} {rs : List R}
    {ks : List (List Item)} (hl : t.leafText = none) (hk : Kids L env c rs ks) :
    WSpec L env c (plainW env t span locs rs) (itemsOf c t locs (rs.map (·.node.tag)) ks) := by
  intro c' st st' hv h
  unfold itemsOf
  simp only [hl]
  unfold plainW at h
  split at h
  · exact binaryW_ok hv hk h
  · exact tableW_ok hv hk h
  · exact tableEmptyW_ok hv h
  · next h1 h2 h3 =>
    have hfr : frame c t = (t.template c).map (·.flatMap Fm.slots) := by
      unfold frame; split
      · exact absurd rfl (h1 _)
      · exact absurd rfl (h2 _ _)
      · exact absurd rfl h3
      · rfl
    rw [hfr, ← variant_template hv]
    cases ht : t.template c' with
    | some ms =>
      rw [ht] at h
      obtain ⟨a, b⟩ := runFms_ok hv hk (template_ok ht).1 h
      rw [(template_ok ht).2] at a
      exact ⟨a, b⟩
    | none =>
      rw [ht] at h
      simp only [Res.bind_eq_ok, Res.pure_eq, Option.map_none] at h ⊢
      obtain ⟨⟨st1, b⟩, h4, h5⟩ := h
      cases h5
      unfold listW at h4
      cases hs : t.seps with
      | some ss =>
        rw [hs] at h4
        exact sepList_ok hv hs _ _ _ _ _ _ _ _ hk h4
      | none =>
        rw [hs] at h4
        simp only at h4 ⊢
        split at h4
        · next hp =>
          rw [if_pos hp]
          exact plainList_ok hv _ _ _ _ _ _ _ _ hk h4
        · next hp =>
          rw [if_neg hp]
          cases h4
          exact ⟨rfl, .nil⟩

theorem setNum_variant {c c' : Config} (hv : Variant c c') {o : NOpt} (ho : Switched o) :
    Variant c (c'.setNum o none) := by
  refine ⟨hv.str, hv.bool, hv.boolOff, ?_, ?_⟩
  · intro p hp
    have : p ≠ o := fun e => hp (e ▸ ho)
    simp only [Config.num, Config.setNum, upd, if_neg this]
    exact hv.num p hp
  · intro p hp
    by_cases e : p = o
    · right; simp [Config.num, Config.setNum, upd, e]
    · simp only [Config.num, Config.setNum, upd, if_neg e]
      exact hv.numOff p hp

theorem setBool_variant {c c' : Config} (hv : Variant c c') {o : BOpt} (ho : SwitchedB o)
    (hf : c.bool .forceSingleLineTable = some true) : Variant c (c'.setBool o (some false)) := by
  refine ⟨hv.str, ?_, ?_, hv.num, hv.numOff⟩
  · intro p hp
    have : p ≠ o := fun e => hp (e ▸ ho)
    simp only [Config.bool, Config.setBool, upd, if_neg this]
    exact hv.bool p hp
  · intro p hp
    by_cases e : p = o
    · right; exact ⟨by simp [Config.bool, Config.setBool, upd, e], hf⟩
    · simp only [Config.bool, Config.setBool, upd, if_neg e]
      exact hv.boolOff p hp

theorem onelineCfg_variant {c c' tc : Config} (hv : Variant c c') {t : Tag} {span : Loc} {st : St}
    (h : onelineCfg c' t span st = some tc) : Variant c tc := by
  unfold onelineCfg at h
  split at h
  · split at h
    · next hc =>
      cases h
      simp only [Bool.and_eq_true, beq_iff_eq] at hc
      have hf : c.bool .forceSingleLineTable = some true := by
        rw [← hv.boolEq (by decide)]; exact hc.1.2
      refine setBool_variant (setBool_variant (setBool_variant (setNum_variant (setNum_variant hv ?_) ?_) ?_ hf)
        ?_ hf) ?_ hf
      · exact .inl rfl
      · exact .inr (.inl rfl)
      · exact .inl rfl
      · exact .inr (.inl rfl)
      · exact .inr (.inr rfl)
    · cases h
  · split at h
    · split at h
      · cases h; exact setNum_variant hv (.inr (.inr (.inl rfl)))
      · cases h
    · split at h
      · split at h
        · cases h; exact setNum_variant hv (.inr (.inr (.inr rfl)))
        · cases h
      · cases h

theorem armW_ok {env : Env} {c : Config} {t : Tag} {span : Loc} {locs : List Loc} {rs : List R}
    {is : List Item} (hp : WSpec L env c (plainW env t span locs rs) is) :
    WSpec L env c (armW env t span locs rs) is := by
  intro c' st st' hv h
  unfold armW at h
  split at h
  · exact hp _ _ _ hv h
  · next tc htc =>
    have hv' := onelineCfg_variant hv htc
    simp only [Res.bind_eq_ok] at h
    obtain ⟨⟨st1, x⟩, h1, h2⟩ := h
    obtain ⟨hs, hx⟩ := testOnelineNoNl_ok h1
    cases x with
    | none =>
      obtain ⟨a, b⟩ := hp _ _ _ hv h2
      rw [hs.1] at b
      exact ⟨a.trans hs.2, b⟩
    | some line =>
      obtain ⟨hnn, st2, h3, rfl⟩ := hx line rfl
      obtain ⟨a, b⟩ := hp _ _ _ hv' h3
      have b' := b.lift st.f (by simpa [hasNewlines] using hnn)
      simp only [List.append_nil] at b'
      simp only [Res.pure_eq] at h2
      cases h2
      rw [← hs.1] at b' ⊢
      cases t <;> exact ⟨hs.2, b'⟩

/-! ### Shapes -/

def Sh.slot : Sh → Slot
  | .lit s => .lit s
  | .gap i => .gap i []
  | .kid i => .kid i

/-- A shape has the parts of the arm, without hints and without the additional gap. -/
def slotMatch : List Sh → List Slot → Bool
  | [], [] => true
  | .lit s :: a, .lit s' :: b => s == s' && slotMatch a b
  | .gap i :: a, .gap j _ :: b => i == j && slotMatch a b
  | .kid i :: a, .kid j :: b => i == j && slotMatch a b
  | a, .extra _ :: b => slotMatch a b
  | _, _ => false

theorem shape_frame {c : Config} {t : Tag} {sh : List Sh} (h : t.shape = some sh) (hne : t ≠ .varRoundSuffix) :
    ∃ fr, frame c t = some fr ∧ slotMatch sh fr = true := by
  cases t <;> simp only [Tag.shape, reduceCtorEq, Option.some.injEq] at h
  case varRoundSuffix => exact absurd rfl hne
  case binaryOp op => subst h; exact ⟨_, rfl, by simp [slotMatch]⟩
  case unaryOp op => subst h; exact ⟨_, rfl, by simp [slotMatch, Fm.slots, El.slots]⟩
  all_goals subst h; exact ⟨_, rfl, rfl⟩

theorem shape_ok {env : Env} {c c' : Config} (hr : env.posRange ≠ none) (hv : Variant c c') {locs : List Loc}
    {rs : List R} {ks : List (List Item)} (hk : Kids L env c rs ks) :
    ∀ {fr : List Slot} {sh : List Sh}, slotMatch sh fr = true → ∀ {st st' : St},
    runAll (runSh env locs rs c') sh st = .ok st' →
    st'.ctx = st.ctx ∧ Emits L env c (fr.flatMap (slotItems locs ks)) st.f st'.f := by
  intro fr
  induction fr with
  | nil =>
    intro sh hm st st' h
    cases sh with
    | nil => cases h; exact ⟨rfl, .nil⟩
    | cons a sh => cases a <;> simp [slotMatch] at hm
  | cons x fr ih =>
    intro sh hm st st' h
    cases x with
    | extra e =>
      have hm' : slotMatch sh fr = true := by cases sh <;> simpa [slotMatch] using hm
      obtain ⟨a, b⟩ := ih hm' h
      exact ⟨a, .extraRaw hr b⟩
    | lit s =>
      match sh, hm, h with
      | .lit s' :: sh, hm, h =>
        simp only [slotMatch, Bool.and_eq_true, beq_iff_eq] at hm
        obtain ⟨rfl, hm2⟩ := hm
        simp only [runAll, Res.bind_eq_ok] at h
        obtain ⟨st1, h1, h2⟩ := h
        cases h1
        obtain ⟨a, b⟩ := ih hm2 h2
        exact ⟨a, .lit b⟩
    | gap i e =>
      match sh, hm, h with
      | .gap j :: sh, hm, h =>
        simp only [slotMatch, Bool.and_eq_true, beq_iff_eq] at hm
        obtain ⟨rfl, hm2⟩ := hm
        simp only [runAll, Res.bind_eq_ok] at h
        obtain ⟨st1, h1, h2⟩ := h
        obtain ⟨e1, s, hs, hf⟩ := locW_ok h1
        obtain ⟨a, b⟩ := ih hm2 h2
        rw [hf] at b
        exact ⟨a.trans e1, .gapRaw hr hs b⟩
    | kid i =>
      match sh, hm, h with
      | .kid j :: sh, hm, h =>
        simp only [slotMatch, Bool.and_eq_true, beq_iff_eq] at hm
        obtain ⟨rfl, hm2⟩ := hm
        simp only [runAll, Res.bind_eq_ok] at h
        obtain ⟨st1, h1, h2⟩ := h
        obtain ⟨e1, g1⟩ := kid_ok hv hk h1
        obtain ⟨a, b⟩ := ih hm2 h2
        exact ⟨a.trans e1, by simpa [slotItems] using g1.append b⟩

theorem shape_ctx {env : Env} {c c' : Config} (hv : Variant c c') {locs : List Loc} {rs : List R}
    {ks : List (List Item)} (hk : Kids L env c rs ks) :
    ∀ {sh : List Sh} {st st' : St}, runAll (runSh env locs rs c') sh st = .ok st' → st'.ctx = st.ctx ∧ Grows st.f st'.f := by
  intro sh
  induction sh with
  | nil => intro st st' h; cases h; exact ⟨rfl, .refl _⟩
  | cons x sh ih =>
    intro st st' h
    simp only [runAll, Res.bind_eq_ok] at h
    obtain ⟨st1, h1, h2⟩ := h
    obtain ⟨i1, i2⟩ := ih h2
    rw [i1]
    refine ⟨?_, Grows.trans ?_ i2⟩
    · cases x with
      | lit s => cases h1; rfl
      | gap i => exact (locW_ok h1).1
      | kid i => exact (kid_ok hv hk h1).1
    · cases x with
      | lit s => cases h1; exact .append _ _
      | gap i =>
        obtain ⟨_, s, _, hf⟩ := locW_ok h1
        rw [hf]
        exact .append _ _
      | kid i => exact (kid_ok hv hk h1).2.grows

theorem writeW_ok {env : Env} {c : Config} {t : Tag} {span : Loc} {locs : List Loc} {rs : List R}
    {ks : List (List Item)} {is : List Item} (hl : t.leafText = none) (hk : Kids L env c rs ks)
    (his : is = itemsOf c t locs (rs.map (·.node.tag)) ks)
    (hraw : L ∨ (env.posRange ≠ none → t.checksRange = true → substr env.buf span env.buf 0 = rawText env is) ∧
      (t = .varRoundSuffix → notContained env.posRange span = false)) :
    WSpec L env c (writeW env t span locs rs) is := by
  subst his
  have harm := armW_ok (plainW_ok (span := span) (locs := locs) hl hk)
  intro c' st st' hv h
  have hw : writeW env t span locs rs c' st =
      (if t.checksRange = true ∧ outOfRange env.posRange span = true then locW env span st
      else
        match t.shape with
        | some sh =>
          if notContained env.posRange span = true then runAll (runSh env locs rs c') sh st
          else armW env t span locs rs c' st
        | none => armW env t span locs rs c' st) := by
    unfold writeW; simp only [hl, Bool.and_eq_true]
    split
    · rfl
    · cases t.shape with
      | none => rfl
      | some sh => simp only; split <;> rfl
  rw [hw] at h
  split at h
  · next ho =>
    obtain ⟨e, s, hs, hf⟩ := locW_ok h
    rw [hf]
    rcases hraw with hL | hraw
    · exact ⟨e, .free hL (.append _ _)⟩
    · rw [hraw.1 (outOfRange_ne ho.2) ho.1] at hs
      exact ⟨e, .raw (outOfRange_ne ho.2) hs⟩
  · split at h
    · next sh hsh =>
      split at h
      · next hn =>
        rcases hraw with hL | hraw
        · exact ⟨(shape_ctx hv hk h).1, .free hL (shape_ctx hv hk h).2⟩
        · have hne : t ≠ .varRoundSuffix := fun e => by rw [hraw.2 e] at hn; cases hn
          obtain ⟨fr, hfr, hm⟩ := shape_frame (c := c) hsh hne
          have := shape_ok (notContained_ne hn) hv hk hm h
          unfold itemsOf
          simp only [hl, hfr]
          exact this
      · exact harm _ _ _ hv h
    · exact harm _ _ _ hv h

/-! ### Reconstruction does not change the items -/

theorem annotateTag_leaf {c : Config} {over : Option Bool} {t : Tag} {ks : List Node} :
    ((annotateTag c over t ks).leafText = none ↔ t.leafText = none) ∧
    (t.leafText ≠ none → (annotateTag c over t ks).leafText = (annotateTag c none t []).leafText) := by
  cases t <;> simp only [annotateTag, Tag.leafText, ne_eq, reduceCtorEq, not_false_eq_true, not_true_eq_false,
    false_implies, and_true, true_implies, iff_self]
  case charStringLiteral s => by_cases h : c.bool .convertCharstringToNormalstring = some true <;> simp [h]

theorem annotateTag_checks {c : Config} {over : Option Bool} {t : Tag} {ks : List Node} :
    (annotateTag c over t ks).checksRange = true ↔ t.checksRange = true := by
  cases t <;> simp only [annotateTag, Tag.checksRange]
  case charStringLiteral s => by_cases h : c.bool .convertCharstringToNormalstring = some true <;> simp [h, Tag.checksRange]

theorem annotateTag_itemHint {c : Config} {over : Option Bool} {t : Tag} {ks : List Node} :
    itemHint (annotateTag c over t ks) = itemHint t := by
  cases t <;> simp only [annotateTag, itemHint]
  case charStringLiteral s => by_cases h : c.bool .convertCharstringToNormalstring = some true <;> simp [h]

theorem sepIs_congr {c : Config} {t t' : Tag} (h1 : elementHint t' = elementHint t)
    (h2 : separator c t' = separator c t) (h3 : t'.isFields = t.isFields) :
    ∀ (seps : List Str) (h : Str) (locs : List Loc) (ks : List (List Item)),
      sepIs c t' h locs ks seps = sepIs c t h locs ks seps := by
  intro seps
  induction seps with
  | nil =>
    intro h locs ks
    cases locs with
    | nil => rfl
    | cons a l => cases l <;> cases ks <;> rfl
  | cons s seps ih =>
    intro h locs ks
    match locs, ks with
    | [], _ => rfl
    | [_], _ => rfl
    | _ :: _ :: _, [] => rfl
    | a :: b :: l, k :: ks => simp only [sepIs, h1, h2, h3, ih]

theorem plainIs_congr : ∀ (locs : List Loc) (ts ts' : List Tag) (ks : List (List Item)),
    ts'.map itemHint = ts.map itemHint → plainIs locs (ts'.zip ks) = plainIs locs (ts.zip ks) := by
  intro locs
  induction locs with
  | nil => intro ts ts' ks _; simp [plainIs]
  | cons l ls ih =>
    intro ts ts' ks h
    match ts, ts', h with
    | [], [], _ => rfl
    | t :: ts, t' :: ts', h =>
      simp only [List.map_cons, List.cons.injEq] at h
      cases ks with
      | nil => rfl
      | cons k ks => simp only [List.zip_cons_cons, plainIs, h.1, ih _ _ _ h.2]

theorem plainIs0_congr (locs : List Loc) (ts ts' : List Tag) (ks : List (List Item))
    (h : ts'.map itemHint = ts.map itemHint) : plainIs0 locs (ts'.zip ks) = plainIs0 locs (ts.zip ks) := by
  match locs, ts, ts', h with
  | [], _, _, _ => simp [plainIs0]
  | _ :: _, [], [], _ => rfl
  | l :: ls, t :: ts, t' :: ts', h =>
    simp only [List.map_cons, List.cons.injEq] at h
    cases ks with
    | nil => rfl
    | cons k ks => simp only [List.zip_cons_cons, plainIs0, plainIs_congr ls ts ts' ks h.2]

theorem itemsOf_annotate {c : Config} {over : Option Bool} {t : Tag} {locs : List Loc} {ts ts' : List Tag}
    {ks : List (List Item)} {ns : List Node} (hl : t.leafText = none) (h : ts'.map itemHint = ts.map itemHint) :
    itemsOf c (annotateTag c over t ns) locs ts' ks = itemsOf c t locs ts ks := by
  have hl' : (annotateTag c over t ns).leafText = none := annotateTag_leaf.1.2 hl
  unfold itemsOf
  simp only [hl, hl']
  have e1 : frame c (annotateTag c over t ns) = frame c t := by
    cases t <;> simp only [annotateTag, frame] <;> first | rfl | cases hl
  have e2 : (annotateTag c over t ns).seps = t.seps := by
    cases t <;> simp only [annotateTag, Tag.seps] <;> cases hl
  have e3 : (annotateTag c over t ns).isPlainList = t.isPlainList := by
    cases t <;> simp only [annotateTag, Tag.isPlainList] <;> cases hl
  have e4 : elementHint (annotateTag c over t ns) = elementHint t := by
    cases t <;> simp only [annotateTag, elementHint] <;> cases hl
  have e5 : separator c (annotateTag c over t ns) = separator c t := by
    cases t <;> simp only [annotateTag, separator] <;> cases hl
  have e6 : (annotateTag c over t ns).isFields = t.isFields := by
    cases t <;> simp only [annotateTag, Tag.isFields] <;> cases hl
  rw [e1, e2, e3]
  simp only [sepIs_congr e4 e5 e6, plainIs0_congr locs ts ts' ks h]

theorem annotateAll_hints (c : Config) (over : Option Bool) (ns : List Node) :
    ((annotateAll c over ns).map Node.tag).map itemHint = (ns.map Node.tag).map itemHint := by
  induction ns with
  | nil => rfl
  | cons n ns ih =>
    cases n with
    | mk tag span locs kids =>
      simp only [annotateAll, annotate, List.map_cons, ih, Node.tag, annotateTag_itemHint]

theorem mkRs_tags (env : Env) (ns : List Node) : (mkRs env ns).map (·.node.tag) = ns.map Node.tag := by
  induction ns with
  | nil => rfl
  | cons n ns ih => cases n; simp only [mkRs, mkR, List.map_cons, ih]

mutual
/-- Writing a node (after reconstruction) renders its items and leaves the indentation state as it was. -/
theorem write_ok (env : Env) (c : Config) (over : Option Bool) :
    ∀ n : Node, L ∨ n.Proper env c → WSpec L env c (mkR env (annotate c over n)).w (n.items c)
  | .mk tag span locs kids, hp => by
    have ih := writeAll_ok env c (childSingle over tag kids.length) kids (hp.imp id (·.2))
    by_cases hl : tag.leafText = none
    · simp only [annotate, mkR]
      refine writeW_ok (annotateTag_leaf.1.2 hl) ih ?_ ?_
      · simp only [Node.items]
        rw [mkRs_tags]
        exact (itemsOf_annotate hl (annotateAll_hints c _ kids)).symm
      · refine hp.imp id (fun hp => ⟨fun hr hc => (hp.1 hr).1 (annotateTag_checks.1 hc) hl, fun e => ?_⟩)
        by_cases hr : env.posRange = none
        · rw [hr]; rfl
        · refine (hp.1 hr).2 ?_
          cases tag <;> simp only [annotateTag, reduceCtorEq] at e ⊢
          case charStringLiteral s => cases hl
    · intro c' st st' hv h
      obtain ⟨s, hs⟩ := Option.ne_none_iff_exists'.1 hl
      have e := (annotateTag_leaf (c := c) (over := over) (t := tag)
        (ks := annotateAll c (childSingle over tag kids.length) kids)).2 hl
      have hne : (annotateTag c over tag (annotateAll c (childSingle over tag kids.length) kids)).leafText ≠ none :=
        fun h => hl (annotateTag_leaf.1.1 h)
      obtain ⟨s', hs'⟩ := Option.ne_none_iff_exists'.1 hne
      simp only [annotate, mkR, writeW, hs'] at h
      cases h
      simp only [Node.items, itemsOf, hs]
      rw [← e, hs']
      exact ⟨rfl, .lit .nil⟩
theorem writeAll_ok (env : Env) (c : Config) (over : Option Bool) :
    ∀ ns : List Node, L ∨ Node.ProperAll env c ns →
      Kids L env c (mkRs env (annotateAll c over ns)) (Node.itemsAll c ns)
  | [], _ => .nil
  | n :: ns, hp => .cons (write_ok env c over n (hp.imp id (·.1))) (writeAll_ok env c over ns (hp.imp id (·.2)))
end

mutual
theorem proper_of_none {env : Env} (c : Config) (h : env.posRange = none) : ∀ n : Node, n.Proper env c
  | .mk _ _ _ kids => ⟨fun h' => absurd h h', properAll_of_none c h kids⟩
theorem properAll_of_none {env : Env} (c : Config) (h : env.posRange = none) :
    ∀ ns : List Node, Node.ProperAll env c ns
  | [] => trivial
  | n :: ns => ⟨proper_of_none c h n, properAll_of_none c h ns⟩
end

/-- The printed program is a rendering of the items of its tree. -/
theorem writeTree_ok {env : Env} {c : Config} {n : Node} (hp : n.Proper env c) {s : Str}
    (h : writeTree env c (annotate c none n) = .ok s) : Emits False env c (n.items c) [] s := by
  simp only [writeTree, Res.bind_eq_ok, Res.pure_eq] at h
  obtain ⟨st, h1, h2⟩ := h
  cases h2
  exact (write_ok env c none n (.inr hp) c _ _ (.refl c) h1).2

end Luafmt
