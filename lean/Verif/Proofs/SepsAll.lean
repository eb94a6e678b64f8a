import Verif.Proofs.FirstLast

/-
Between any two tokens that must not be joined the printer has a hint that is not empty (except between `[` and a
long string).
-/
namespace Luafmt
open Spec

variable {c : Config}

/-! ### The checks -/

/-- What is known about the token before a part of a production. -/
inductive Prev where
  | ext
  | last (ks : List Token)
  | any

/-- The next part may start with one of these tokens. -/
def Prev.ok : Prev → Bool → List Token → Bool
  | .ext, _, _ => true
  | .last ks, B, fs => B || ks.all fun k => fs.all fun f => adjK k f
  | .any, _, fs => fs == [.closeCurly]

/-- The hints of a fixed sequence separate its parts. -/
def slotsCheck : Prev → Bool → Nat → List Slot → List Sym → Bool
  | .any, _, _, [], [] => false
  | _, _, _, [], [] => true
  | .ext, _, _, .gap _ _ :: _, _ :: _ => false
  | P, B, k, .gap _ h :: S, s :: ss => slotsCheck P (B && !h.isEmpty) k S (s :: ss)
  | P, B, k, .extra _ :: S, s :: ss => slotsCheck P B k S (s :: ss)
  | P, B, k, .lit _ :: S, .t tok :: ss => P.ok B [tok.kind] && slotsCheck (.last [tok.kind]) true k S ss
  | P, B, k, .kid i :: S, .n n :: ss => i == k && P.ok B (firstToks n) &&
      slotsCheck (if n = .fieldList then .any else .last (lastToks n)) true (k + 1) S ss
  | _, _, _, _, _ => false

def sepCheck (tag : Tag) (ss : List Sym) : Bool :=
  let ns := ss.flatMap Sym.nts
  (ns.flatMap lastToks).all (fun l => adjK l (sepTok tag) && l != .minus) &&
    (!(elementHint tag).isEmpty || (ns.flatMap firstToks).all fun f => adjK (sepTok tag) f)

def plainCheck (ss : List Sym) : Bool :=
  let ns := ss.flatMap Sym.nts
  (ns.flatMap lastToks).all fun l => ns.all fun n => prods.all fun q =>
    !(chainHeads n).contains q.1 || !(itemHint q.2.1).isEmpty || (rhsFirsts q.2.2).all fun f => adjK l f

/-- What is checked of every production. -/
def sepsCheck (p : NT × Tag × List Sym) : Bool :=
  match p.2.1.leafText with
  | some _ => true
  | none =>
    match p.2.1.seps with
    | some _ => sepCheck p.2.1 p.2.2
    | none =>
      if p.2.1.isPlainList then plainCheck p.2.2
      else
        match frame Config.default p.2.1 with
        | some fr => slotsCheck .ext true 0 fr p.2.2
        | none => false

theorem prods_seps : ∀ p ∈ prods, sepsCheck p = true := by decide +kernel

theorem frame_default (c : Config) (t : Tag) :
    frame c t = frame Config.default t ∨
    frame c t = some [.extra (tableHint c), .lit ['{'], .gap 0 (tableHint c), .kid 0, .gap 1 (tableHint c), .lit ['}']] ∨
    frame c t = some [.lit ['{'], .gap 0 (tableHint c), .lit ['}']] := by
  cases t <;> first | exact .inl rfl | exact .inr (.inl rfl) | exact .inr (.inr rfl)

/-! ### Longer hints do not hurt -/

def Slot.grow (h : Str) : Slot → Slot
  | .gap i x => .gap i (if x.isEmpty then h else x)
  | .extra x => .extra (if x.isEmpty then h else x)
  | s => s

theorem Prev.ok_mono {P : Prev} {B B' : Bool} {fs : List Token} (hB : B = true → B' = true) (h : P.ok B fs = true) :
    P.ok B' fs = true := by
  cases P with
  | ext => rfl
  | any => exact h
  | last ks =>
    simp only [Prev.ok, Bool.or_eq_true] at h ⊢
    exact h.imp_left hB

theorem slotsCheck_mono (g : Str) : ∀ (S : List Slot) {P : Prev} {B B' : Bool} {k : Nat} {ss : List Sym},
    (B = true → B' = true) → slotsCheck P B k S ss = true → slotsCheck P B' k (S.map (Slot.grow g)) ss = true := by
  intro S
  induction S with
  | nil =>
    intro P B B' k ss hB h
    cases ss with
    | nil => cases P <;> simp_all [slotsCheck]
    | cons => simp [slotsCheck] at h
  | cons s S ih =>
    intro P B B' k ss hB h
    cases s with
    | gap i x =>
      cases ss with
      | nil => simp [slotsCheck] at h
      | cons s ss =>
        cases P with
        | ext => simp [slotsCheck] at h
        | _ =>
          simp only [slotsCheck, List.map_cons, Slot.grow] at h ⊢
          refine ih ?_ h
          intro e
          simp only [Bool.and_eq_true] at e ⊢
          have : x.isEmpty = false := by simpa using e.2
          exact ⟨hB e.1, by simp [this]⟩
    | extra x =>
      cases ss with
      | nil => simp [slotsCheck] at h
      | cons s ss =>
        simp only [slotsCheck, List.map_cons, Slot.grow] at h ⊢
        exact ih hB h
    | lit x =>
      cases ss with
      | nil => simp [slotsCheck] at h
      | cons s ss =>
        cases s with
        | t tok =>
          simp only [slotsCheck, List.map_cons, Slot.grow, Bool.and_eq_true] at h ⊢
          exact ⟨Prev.ok_mono hB h.1, ih id h.2⟩
        | _ => simp [slotsCheck] at h
    | kid i =>
      cases ss with
      | nil => simp [slotsCheck] at h
      | cons s ss =>
        cases s with
        | n a =>
          simp only [slotsCheck, List.map_cons, Slot.grow, Bool.and_eq_true] at h ⊢
          exact ⟨⟨h.1.1, Prev.ok_mono hB h.1.2⟩, ih id h.2⟩
        | _ => simp [slotsCheck] at h

theorem frame_slots {p : NT × Tag × List Sym} (hp : p ∈ prods) (h1 : p.2.1.leafText = none) (h2 : p.2.1.seps = none)
    (h3 : p.2.1.isPlainList = false) {fr : List Slot} (hf : frame c p.2.1 = some fr) :
    slotsCheck .ext true 0 fr p.2.2 = true := by
  have h := prods_seps p hp
  simp only [sepsCheck, h1, h2, h3, Bool.false_eq_true, if_false] at h
  have hd : ∃ fr0, frame Config.default p.2.1 = some fr0 ∧ (fr = fr0 ∨ fr = fr0.map (Slot.grow (tableHint c))) := by
    generalize p.2.1 = t at hf
    cases t <;> first
      | exact ⟨_, hf, .inl rfl⟩
      | (cases hf; exact ⟨_, rfl, .inr rfl⟩)
  obtain ⟨fr0, e1, e2⟩ := hd
  rw [e1] at h
  rcases e2 with rfl | rfl
  · exact h
  · exact slotsCheck_mono _ _ id h

/-! ### Parts -/

/-- What must follow a part. -/
def ContOk (x : Cst TokL) (is : List Item) (rest : List TokL) : Prop :=
  if x.isFl = true then ∀ T pv B, Seps T pv B is rest
  else ∀ l, x.yield.getLast? = some l → Seps false (some l.tok) true is rest

/-- The hints of a part separate its tokens. -/
def SepGood (c : Config) (x : Cst TokL) : Prop :=
  ∀ pv B is rest, (∀ t, x.yield.head? = some t → B = true ∨ PairOk pv t.tok) → ContOk x is rest →
    Seps false pv B ((placeC x).items c ++ is) (x.yield ++ rest)

theorem sepGood_tok (t : TokL) : SepGood c (.tok t) := by
  intro pv B is rest h1 h2
  exact ⟨h1 t rfl, h2 t rfl⟩

/-- The parts agree with the symbols of a right-hand side without lists. -/
inductive FitsD : List Sym → List (Cst TokL) → Prop
  | nil : FitsD [] []
  | t {tok : Token} {t : TokL} {ss : List Sym} {xs : List (Cst TokL)} : t.tok = tok → FitsD ss xs →
      FitsD (.t tok :: ss) (.tok t :: xs)
  | n {n : NT} {x : Cst TokL} {ss : List Sym} {xs : List (Cst TokL)} :
      Derives n (strip x) → FitsD ss xs → FitsD (.n n :: ss) (x :: xs)

theorem fitsD_of_matches {ss : List Sym} {xs : List (Cst TokL)} (hs : ss.all Sym.isTN = true)
    (h : Matches ss (stripAll xs)) : FitsD ss xs := by
  induction ss generalizing xs with
  | nil =>
    cases xs with
    | nil => exact .nil
    | cons x xs => simp only [stripAll] at h; cases h
  | cons s ss ih =>
    simp only [List.all_cons, Bool.and_eq_true] at hs
    cases s with
    | t tok =>
      cases xs with
      | nil => simp only [stripAll] at h; cases h
      | cons x xs =>
        simp only [stripAll] at h
        generalize he : strip x = sx at h
        cases h with
        | t h =>
          obtain ⟨u, rfl, e⟩ := strip_tok he
          exact .t e (ih hs.2 h)
    | n n =>
      cases xs with
      | nil => simp only [stripAll] at h; cases h
      | cons x xs =>
        simp only [stripAll] at h
        cases h with
        | n hd h => exact .n hd (ih hs.2 h)
    | list n => simp [Sym.isTN] at hs
    | sep n t => simp [Sym.isTN] at hs
    | sepEnd n => simp [Sym.isTN] at hs

mutual
theorem strip_yield : ∀ x : Cst TokL, (strip x).yield = x.yield.map (·.tok)
  | .tok t => rfl
  | .node tag xs => by simp only [strip, Cst.yield]; exact stripAll_yields xs
theorem stripAll_yields : ∀ xs : List (Cst TokL), Cst.yields (stripAll xs) = (Cst.yields xs).map (·.tok)
  | [] => rfl
  | x :: xs => by simp only [stripAll, Cst.yields, List.map_append, strip_yield x, stripAll_yields xs]
end

theorem first_tok {n : NT} {x : Cst TokL} (h : Derives n (strip x)) :
    ∃ t ts, x.yield = t :: ts ∧ t.tok.kind ∈ firstToks n := by
  obtain ⟨t, ts, h1, h2⟩ := derives_first h
  rw [strip_yield] at h1
  cases hy : x.yield with
  | nil => rw [hy] at h1; cases h1
  | cons u us =>
    rw [hy] at h1
    simp only [List.map_cons, List.cons.injEq] at h1
    exact ⟨u, us, rfl, h1.1 ▸ h2⟩

theorem last_tok {n : NT} {x : Cst TokL} (h : Derives n (strip x)) {l : TokL} (hl : x.yield.getLast? = some l) :
    l.tok.kind ∈ lastToks n := by
  obtain ⟨t, h1, h2⟩ := derives_last h
  rw [strip_yield, List.getLast?_map, hl] at h1
  cases h1
  exact h2

/-- What is known about the state before the rest of a fixed sequence. -/
def Prev.holds (P : Prev) (Bc B T : Bool) (pv : Option Token) (ts : List TokL) : Prop :=
  match P with
  | .ext => T = false ∧ ∀ t, ts.head? = some t → B = true ∨ PairOk pv t.tok
  | .last ks => T = false ∧ (Bc = true → B = true) ∧ ∃ p, pv = some p ∧ p.kind ∈ ks
  | .any => True

theorem pairOk_of_all {ks fs : List Token} {p t : Token} (h : (ks.all fun k => fs.all fun f => adjK k f) = true)
    (hp : p.kind ∈ ks) (ht : t.kind ∈ fs) : PairOk (some p) t := by
  intro q hq
  cases hq
  have := List.all_eq_true.mp (List.all_eq_true.mp h _ hp) _ ht
  rw [adjK_kind] at this
  exact this

theorem pairOk_curly (pv : Option Token) : PairOk pv .closeCurly := by
  intro p _
  have := joinsCh_safe p (c := '}') (by unfold SafeCh; simp)
  show (!joinsCh p '}' || _) = true
  rw [this]; rfl

theorem firstToks_ne (n : NT) : (firstToks n == [.closeCurly]) = false := by
  unfold firstToks; split <;> rfl

theorem Prev.holds.grow {P : Prev} {Bc B T : Bool} {pv : Option Token} {ts : List TokL} (h : P.holds Bc B T pv ts)
    (hP : P ≠ .ext) {b b' : Bool} (hb : b = true → b' = true) : P.holds (Bc && b) (B && b') T pv ts := by
  cases P with
  | ext => exact absurd rfl hP
  | any => trivial
  | last ks =>
    refine ⟨h.1, fun e => ?_, h.2.2⟩
    simp only [Bool.and_eq_true] at e ⊢
    exact ⟨h.2.1 e.1, hb e.2⟩

theorem Prev.holds.pair {P : Prev} {Bc B T : Bool} {pv : Option Token} {ts : List TokL} {fs : List Token} {t : TokL}
    (h : P.holds Bc B T pv ts) (hok : P.ok Bc fs = true) (hh : ts.head? = some t) (ht : t.tok.kind ∈ fs) :
    B = true ∨ PairOk pv t.tok := by
  cases P with
  | ext => exact h.2 t hh
  | any =>
    right
    have e := eq_of_beq (show (fs == [.closeCurly]) = true from hok)
    subst e
    have : t.tok = .closeCurly := by
      have := List.mem_singleton.mp ht
      generalize t.tok = u at this
      cases u <;> first | rfl | (exact absurd this (by simp [Token.kind]))
    rw [this]
    exact pairOk_curly pv
  | last ks =>
    obtain ⟨_, h2, p, rfl, h4⟩ := h
    simp only [Prev.ok, Bool.or_eq_true] at hok
    rcases hok with e | e
    · exact .inl (h2 e)
    · exact .inr (pairOk_of_all e h4 ht)

theorem yields_cons_last {x : Cst TokL} {xs : List (Cst TokL)} {is : List Item} {rest : List TokL}
    (hC : ∀ l, (Cst.yields (x :: xs)).getLast? = some l → Seps false (some l.tok) true is rest) :
    ∀ l, (Cst.yields xs).getLast? = some l → Seps false (some l.tok) true is rest := by
  intro l hl
  refine hC l ?_
  simp only [Cst.yields]
  exact getLast?_append_some hl

theorem slots_seps {locs : List Loc} {ks : List (List Item)} {is : List Item} {rest : List TokL} : ∀ (S : List Slot)
    {P : Prev} {Bc B T : Bool} {k : Nat} {pv : Option Token} {ss : List Sym} {xs : List (Cst TokL)},
    slotsCheck P Bc k S ss = true → FitsD ss xs → (∀ x ∈ xs, SepGood c x) → ks.drop k = kidItems c xs →
    P.holds Bc B T pv (Cst.yields xs ++ rest) →
    (∀ l, (Cst.yields xs).getLast? = some l → Seps false (some l.tok) true is rest) →
    (xs = [] → Seps T pv B is rest) →
    Seps T pv B (S.flatMap (slotItems locs ks) ++ is) (Cst.yields xs ++ rest) := by
  intro S
  induction S with
  | nil =>
    intro P Bc B T k pv ss xs hc hf hg hk hP hC hE
    cases ss with
    | nil => cases hf; exact hE rfl
    | cons => simp [slotsCheck] at hc
  | cons s S ih =>
    intro P Bc B T k pv ss xs hc hf hg hk hP hC hE
    cases ss with
    | nil => cases s <;> simp [slotsCheck] at hc
    | cons sy ss =>
      have hne : xs ≠ [] := by cases hf <;> simp
      cases s with
      | gap i h =>
        have hPe : P ≠ .ext := by rintro rfl; simp [slotsCheck] at hc
        have hc : slotsCheck P (Bc && !h.isEmpty) k S (sy :: ss) = true := by
          cases P with
          | ext => exact absurd rfl hPe
          | _ => simpa only [slotsCheck] using hc
        exact ih hc hf hg hk (hP.grow hPe (fun e => by simp only [Bool.or_eq_true]; exact .inr e)) hC (fun e => absurd e hne)
      | extra h =>
        simp only [slotsCheck] at hc
        exact ih hc hf hg hk hP hC (fun e => absurd e hne)
      | lit w =>
        cases hf with
        | n => simp [slotsCheck] at hc
        | @t tok t ss xs e hf =>
          simp only [slotsCheck, Bool.and_eq_true] at hc
          refine ⟨hP.pair hc.1 rfl (by rw [e]; exact List.mem_singleton.mpr rfl), ?_⟩
          refine ih hc.2 hf (fun x hx => hg x (List.mem_cons_of_mem _ hx)) ?_ ?_ (yields_cons_last hC) ?_
          · rw [hk]; simp [kidItems, placeAll, placeC, Part.node?, List.filterMap_cons]
          · exact ⟨rfl, fun h => h, t.tok, rfl, by rw [e]; exact List.mem_singleton.mpr rfl⟩
          · intro e; subst e; exact hC t rfl
      | kid i =>
        cases hf with
        | t => simp [slotsCheck] at hc
        | @n n x ss xs hd hf =>
          simp only [slotsCheck, Bool.and_eq_true] at hc
          obtain ⟨⟨hi, h1⟩, h2⟩ := hc
          have hi := eq_of_beq hi
          subst hi
          obtain ⟨tag, ys, rfl⟩ := strip_derives hd
          have hk0 : ks.drop i = (placeC (.node tag ys)).items c :: kidItems c xs := by
            rw [hk]; simp [kidItems, placeAll, placeC, Part.node?, Node.itemsAll, Part.items]
          have hk1 : ks[i]?.getD [] = (placeC (.node tag ys)).items c := by
            have := congrArg List.head? hk0
            simp only [List.head?_drop, List.head?_cons] at this
            simp [this]
          have hk2 : ks.drop (i + 1) = kidItems c xs := by
            have := congrArg List.tail hk0
            simpa [List.tail_drop] using this
          obtain ⟨t, ts, hy, ht⟩ := first_tok hd
          have hT : T = false := by
            cases P with
            | ext => exact hP.1
            | last => exact hP.1
            | any => exact absurd (show (firstToks n == [.closeCurly]) = true from h1) (by rw [firstToks_ne]; decide)
          subst hT
          simp only [List.flatMap_cons, slotItems, hk1, Cst.yields, List.append_assoc]
          refine hg _ List.mem_cons_self pv B _ _ ?_ ?_
          · intro u hu
            rw [hy] at hu
            cases hu
            exact hP.pair h1 (by simp only [Cst.yields, hy]; rfl) ht
          · have hlast : ∀ l, (Cst.node tag ys).yield.getLast? = some l → xs = [] → Seps false (some l.tok) true is rest := by
              intro l hl e
              subst e
              exact hC l (by simpa [Cst.yields] using hl)
            unfold ContOk
            split
            · next hfl =>
              have hn : n = .fieldList := derives_fields hd (by rw [isFl_strip]; exact hfl)
              rw [if_pos hn] at h2
              intro T pv B
              refine ih h2 hf (fun x hx => hg x (List.mem_cons_of_mem _ hx)) hk2 trivial (yields_cons_last hC) ?_
              intro e
              subst e
              cases hf
              cases S with
              | nil => simp [slotsCheck] at h2
              | cons s S => cases s <;> simp [slotsCheck] at h2
            · intro l hl
              refine ih h2 hf (fun x hx => hg x (List.mem_cons_of_mem _ hx)) hk2 ?_ (yields_cons_last hC) ?_
              · split
                · trivial
                · exact ⟨rfl, fun h => h, l.tok, rfl, last_tok hd hl⟩
              · exact hlast l hl

/-! ### Lists -/

/-- The parts of a list that are nodes start and end with these tokens. -/
def Bounds (fs ls : List Token) (x : Cst TokL) : Prop :=
  (∃ t ts, x.yield = t :: ts ∧ t.tok.kind ∈ fs) ∧ ∀ l, x.yield.getLast? = some l → l.tok.kind ∈ ls

theorem bounds_of {ns : List NT} {n : NT} {x : Cst TokL} (hn : n ∈ ns) (h : Derives n (strip x)) :
    Bounds (ns.flatMap firstToks) (ns.flatMap lastToks) x := by
  obtain ⟨t, ts, h1, h2⟩ := first_tok h
  refine ⟨⟨t, ts, h1, List.mem_flatMap.mpr ⟨n, hn, h2⟩⟩, fun l hl => List.mem_flatMap.mpr ⟨n, hn, last_tok h hl⟩⟩

theorem sepTok_kind (t : Tag) : (sepTok t).kind = sepTok t := by
  rcases sepTok_cases t with e | e <;> rw [e] <;> rfl

theorem spell_fieldSep {t : Token} (h : isFieldSep t = true) : ∃ y, spell t = [y] := by
  rcases isFieldSep_cases h with e | e <;> rw [e] <;> exact ⟨_, rfl⟩

theorem contOk_cont {t : Tag} {ys : List (Cst TokL)} {is : List Item} {rest : List TokL} (hn : (Cst.node t ys).isFl = false)
    (h : ∀ l, (Cst.node t ys).yield.getLast? = some l → Seps false (some l.tok) true is rest) :
    ContOk (.node t ys) is rest := by
  unfold ContOk
  rw [hn]
  simpa using h

theorem Seps.gap0 {T B : Bool} {pv : Option Token} {l : Nat} {h : Str} {is : List Item} {ts : List TokL} (hs : Seps T pv B is ts) :
    Seps T pv B (.gap ⟨l, l⟩ h :: is) ts := by
  show Seps T pv (B && (l == l || !h.isEmpty)) is ts
  simpa using hs

theorem sepIs_seps {tag : Tag} {fs ls : List Token}
    (h1 : ls.all (fun l => adjK l (sepTok tag) && l != .minus) = true)
    (h2 : (elementHint tag).isEmpty = false ∨ fs.all (fun f => adjK (sepTok tag) f) = true)
    (h3 : tag.isFields = true → (elementHint tag).isEmpty = false)
    {xs : List (Cst TokL)} (hs : SepShape tag xs) : ∀ {pv : Option Token} {B : Bool} {h : Str} {pre : Loc} {is : List Item}
      {rest : List TokL}, (∀ x ∈ xs, SepGood c x) → (∀ x ∈ xs, x.isFl = false) →
    (∀ t ys, .node t ys ∈ xs → Bounds fs ls (.node t ys)) →
    (∀ t, (Cst.yields xs).head? = some t → (B && (pre.l == pre.r || !h.isEmpty)) = true ∨ PairOk pv t.tok) →
    (if tag.isFields = true then ∀ T pv B, Seps T pv B is rest
      else ∀ l, (Cst.yields xs).getLast? = some l → Seps false (some l.tok) true is rest) →
    Seps false pv B (sepIs c tag h (sepLocs pre (placeAll xs)).1 (kidItems c xs) (sepLocs pre (placeAll xs)).2 ++ is)
      (Cst.yields xs ++ rest) := by
  induction hs with
  | one t ys =>
    intro pv B h pre is rest hg hn hb hh hC
    have hx := hg _ List.mem_cons_self
    have hy : Cst.yields [Cst.node t ys] = (Cst.node t ys).yield := by simp [Cst.yields]
    rw [hy] at hh hC ⊢
    have := hx pv (B && (pre.l == pre.r || !h.isEmpty)) ([.gap ⟨(placeC (.node t ys)).span.r, (placeC (.node t ys)).span.r⟩ [],
      .trail tag.isFields [] ((separator c tag).getD [])] ++ is) rest hh (contOk_cont (hn _ List.mem_cons_self) fun l hl => by
        refine Seps.gap0 ?_
        show Seps false (some l.tok) true (.trail tag.isFields [] ((separator c tag).getD []) :: is) rest
        cases hf : tag.isFields with
        | false =>
          rw [hf, if_neg (by simp)] at hC
          exact hC l hl
        | true =>
          rw [hf] at hC
          have hC : ∀ T pv B, Seps T pv B is rest := by simpa using hC
          exact ⟨rfl, hC _ _ _, fun _ _ => hC _ _ _⟩)
    simpa [placeAll, sepLocs, kidItems, placeC, Part.node?, Node.itemsAll, sepIs, Part.items, Seps] using this
  | trail t ys s hf hsep =>
    intro pv B h pre is rest hg hn hb hh hC
    have hx := hg _ List.mem_cons_self
    rw [if_pos hf] at hC
    have hy : Cst.yields [Cst.node t ys, .tok s] = (Cst.node t ys).yield ++ [s] := by simp [Cst.yields, Cst.yield]
    obtain ⟨⟨u, us, hu, _⟩, hlast⟩ := hb t ys List.mem_cons_self
    have hsp : sepText s.tok = spell s.tok := by
      rcases isFieldSep_cases hsep with e | e
      · exact sepText_spell (.inl e)
      · exact sepText_spell (.inr (.inl e))
    rw [hy, List.append_assoc]
    rw [hy, hu] at hh
    have := hx pv (B && (pre.l == pre.r || !h.isEmpty)) ([.gap ⟨(placeC (.node t ys)).span.r, s.l⟩ [],
      .trail true (spell s.tok) ((separator c tag).getD (spell s.tok))] ++ is) ([s] ++ rest)
      (by rw [hu]; exact hh) (contOk_cont (hn _ List.mem_cons_self) fun l hl => by
        obtain ⟨y, hy⟩ := spell_fieldSep hsep
        show Seps false (some l.tok) _ (.trail true (spell s.tok) ((separator c tag).getD (spell s.tok)) :: is) (s :: rest)
        rw [hy]
        refine ⟨rfl, ?_, hC _ _ _, hC _ _ _⟩
        intro hm
        have := List.all_eq_true.mp h1 _ (hlast l hl)
        rw [Option.some.inj hm] at this
        simp [Token.kind] at this)
    simpa [placeAll, sepLocs, kidItems, placeC, Part.node?, Node.itemsAll, sepIs, Part.items, Seps, List.filterMap_cons, hsp, hf,
      Part.span] using this
  | cons t ys s xs hsep hsh ih =>
    intro pv B h pre is rest hg hn hb hh hC
    have hx := hg _ List.mem_cons_self
    obtain ⟨⟨u, us, hu, _⟩, hlast⟩ := hb t ys List.mem_cons_self
    have hsp : sepText s.tok = spell s.tok := by
      rcases hsep with e | ⟨_, e⟩
      · rcases sepTok_cases tag with e' | e'
        · exact sepText_spell (.inl (e.trans e'))
        · exact sepText_spell (.inr (.inr (e.trans e')))
      · rcases isFieldSep_cases e with e | e
        · exact sepText_spell (.inl e)
        · exact sepText_spell (.inr (.inl e))
    obtain ⟨y, ys', rfl⟩ := sepShape_ne hsh
    have hne := fun pre => sepIs_ne (c := c) (h := elementHint tag) (pre := pre) hsh
    have hhead : ∃ t0 zs, y = .node t0 zs := by cases hsh <;> exact ⟨_, _, rfl⟩
    obtain ⟨t0, zs, rfl⟩ := hhead
    obtain ⟨⟨v, vs, hv, hvk⟩, _⟩ := hb t0 zs (by simp)
    have ih' := ih (pv := some s.tok) (B := true) (h := elementHint tag) (pre := ⟨s.r, (placeC (.node t0 zs)).span.l⟩) (is := is)
      (rest := rest)
      (fun x hx => hg x (List.mem_cons_of_mem _ (List.mem_cons_of_mem _ hx)))
      (fun x hx => hn x (List.mem_cons_of_mem _ (List.mem_cons_of_mem _ hx)))
      (fun t ys h => hb t ys (List.mem_cons_of_mem _ (List.mem_cons_of_mem _ h)))
      (fun w hw => by
        have hw : w = v := by
          simp only [Cst.yields, hv, List.cons_append, List.head?_cons, Option.some.injEq] at hw
          exact hw.symm
        subst hw
        rcases h2 with e | e
        · left; rw [e]; simp
        · rcases hsep with e' | ⟨e', _⟩
          · right
            rw [e']
            intro p hp
            cases hp
            have := List.all_eq_true.mp e _ hvk
            rw [← sepTok_kind, adjK_kind] at this
            exact this
          · left; rw [h3 e']; simp)
      (by
        split
        · next hf => rw [if_pos hf] at hC; exact hC
        · next hf =>
          rw [if_neg hf] at hC
          intro l hl
          refine hC l ?_
          simp only [Cst.yields] at hl ⊢
          exact getLast?_append_some (getLast?_append_some hl))
    have := hx pv (B && (pre.l == pre.r || !h.isEmpty)) ([.gap ⟨(placeC (.node t ys)).span.r, s.l⟩ [],
      .lit (spell s.tok) ((separator c tag).getD (spell s.tok))] ++
        (sepIs c tag (elementHint tag) (sepLocs ⟨s.r, (placeC (.node t0 zs)).span.l⟩ (placeAll (.node t0 zs :: ys'))).1
          (kidItems c (.node t0 zs :: ys')) (sepLocs ⟨s.r, (placeC (.node t0 zs)).span.l⟩ (placeAll (.node t0 zs :: ys'))).2 ++ is))
      (s :: (Cst.yields (.node t0 zs :: ys') ++ rest))
      (by
        rw [hu]
        intro w hw
        refine hh w ?_
        simp only [Cst.yields, hu, List.cons_append]
        exact hw) (contOk_cont (hn _ List.mem_cons_self) fun l hl => by
        refine ⟨.inr ?_, ih'⟩
        rcases hsep with e | ⟨_, e⟩
        · rw [e]
          intro p hp
          cases hp
          have := (Bool.and_eq_true_iff.mp (List.all_eq_true.mp h1 _ (hlast l hl))).1
          rw [← sepTok_kind, adjK_kind] at this
          exact this
        · intro p _
          rw [adj_sep e]; rfl)
    have hne := hne ⟨s.r, (placeC (.node t0 zs)).span.l⟩
    simp only [placeAll, sepLocs, kidItems, placeC, Part.node?, Node.itemsAll, sepIs, Cst.yields, Cst.yield,
      Part.items, Part.span, List.filterMap_cons, hsp, List.cons_append, List.append_assoc, Seps, List.nil_append] at this hne ⊢
    rw [hne]
    simpa using this

theorem itemHint_build (tag : Tag) (ps : List Part) : itemHint (buildNode tag ps).tag = itemHint tag := by
  unfold buildNode
  split
  · cases tag <;> rfl
  · split <;> rfl

theorem plainIs_seps {ns : List NT}
    (hck : ((ns.flatMap lastToks).all fun l => ns.all fun n => prods.all fun q =>
      !(chainHeads n).contains q.1 || !(itemHint q.2.1).isEmpty || (rhsFirsts q.2.2).all fun f => adjK l f) = true)
    {is : List Item} {rest : List TokL} {xs : List (Cst TokL)} : ∀ {p : Part} {p0 : Token},
    (∀ x ∈ xs, SepGood c x) → (∀ x ∈ xs, x.isFl = false) → (∀ x ∈ xs, ∃ n ∈ ns, Derives n (strip x)) →
    p0.kind ∈ ns.flatMap lastToks →
    (∀ l, (Cst.yields xs).getLast? = some l → Seps false (some l.tok) true is rest) →
    (xs = [] → Seps false (some p0) true is rest) →
    Seps false (some p0) true (plainIs (gapsOf (p :: placeAll xs))
      ((((placeAll xs).filterMap Part.node?).map Node.tag).zip (kidItems c xs)) ++ is) (Cst.yields xs ++ rest) := by
  induction xs with
  | nil =>
    intro p p0 _ _ _ _ _ hE
    exact hE rfl
  | cons x xs ih =>
    intro p p0 hg hn hd hp hC hE
    obtain ⟨n, hnn, hdx⟩ := hd _ List.mem_cons_self
    obtain ⟨tag, ys, rfl⟩ := strip_derives hdx
    have hpair : ∀ t, (Cst.node tag ys).yield.head? = some t →
        (true && (p.span.r == (placeC (.node tag ys)).span.l || !(itemHint (buildNode tag (placeAll ys)).tag).isEmpty)) = true ∨ PairOk (some p0) t.tok := by
      intro t ht
      rw [itemHint_build]
      have h1 := List.all_eq_true.mp (List.all_eq_true.mp hck _ hp) _ hnn
      rcases derives_head hdx with ⟨a, tag', ss, cs, e, hq, ha, hm⟩ | ⟨a, tag', t', e, hl⟩
      · cases e
        have h2 := List.all_eq_true.mp h1 _ hq
        simp only [Bool.or_eq_true] at h2
        rcases h2 with (h2 | h2) | h2
        · simp [ha] at h2
        · left; simp only [h2, Bool.or_true, Bool.and_true]
        · right
          obtain ⟨u, us, e1, e2⟩ := matches_first hm (prods_firsts _ hq).1
          rw [stripAll_yields] at e1
          have : t.tok = u := by
            have := congrArg List.head? e1
            simp only [Cst.yield] at ht
            simpa [ht] using this
          subst this
          intro q hq
          cases hq
          have := List.all_eq_true.mp h2 _ e2
          rw [adjK_kind] at this
          exact this
      · simp only [strip, Cst.node.injEq] at e
        left
        rw [e.1, (leafTag_kinds hl).2.2.2]; simp
    have := hg _ List.mem_cons_self (some p0) (true && (p.span.r == (placeC (.node tag ys)).span.l || !(itemHint (buildNode tag (placeAll ys)).tag).isEmpty))
      (plainIs (gapsOf (placeC (.node tag ys) :: placeAll xs))
      ((((placeAll xs).filterMap Part.node?).map Node.tag).zip (kidItems c xs)) ++ is) (Cst.yields xs ++ rest) hpair
      (contOk_cont (hn _ List.mem_cons_self) fun l hl => by
        refine ih (fun x hx => hg x (List.mem_cons_of_mem _ hx)) (fun x hx => hn x (List.mem_cons_of_mem _ hx))
          (fun x hx => hd x (List.mem_cons_of_mem _ hx)) (List.mem_flatMap.mpr ⟨n, hnn, last_tok hdx hl⟩)
          (yields_cons_last hC) ?_
        intro e
        subst e
        exact hC l (by simpa [Cst.yields] using hl))
    simpa [placeAll, gapsOf, placeC, Part.node?, kidItems, Node.itemsAll, plainIs, Part.items, Cst.yields, Seps] using this

theorem plainIs0_seps {ns : List NT}
    (hck : ((ns.flatMap lastToks).all fun l => ns.all fun n => prods.all fun q =>
      !(chainHeads n).contains q.1 || !(itemHint q.2.1).isEmpty || (rhsFirsts q.2.2).all fun f => adjK l f) = true)
    {is : List Item} {rest : List TokL} {x : Cst TokL} {xs : List (Cst TokL)} {l0 : Nat} {pv : Option Token} {B : Bool}
    (hg : ∀ y ∈ x :: xs, SepGood c y) (hn : ∀ y ∈ x :: xs, y.isFl = false) (hd : ∀ y ∈ x :: xs, ∃ n ∈ ns, Derives n (strip y))
    (hh : ∀ t, (Cst.yields (x :: xs)).head? = some t → B = true ∨ PairOk pv t.tok)
    (hC : ∀ l, (Cst.yields (x :: xs)).getLast? = some l → Seps false (some l.tok) true is rest) :
    Seps false pv B (plainIs0 (⟨l0, l0⟩ :: gapsOf (placeAll (x :: xs)))
      ((((placeAll (x :: xs)).filterMap Part.node?).map Node.tag).zip (kidItems c (x :: xs))) ++ is)
        (Cst.yields (x :: xs) ++ rest) := by
  obtain ⟨n, hnn, hdx⟩ := hd _ List.mem_cons_self
  obtain ⟨tag, ys, rfl⟩ := strip_derives hdx
  obtain ⟨u, us, hu, _⟩ := first_tok hdx
  have := hg _ List.mem_cons_self pv B
    (plainIs (gapsOf (placeC (.node tag ys) :: placeAll xs))
    ((((placeAll xs).filterMap Part.node?).map Node.tag).zip (kidItems c xs)) ++ is) (Cst.yields xs ++ rest)
    (by
      rw [hu]
      intro w hw
      refine hh w ?_
      simp only [Cst.yields, hu, List.cons_append]
      exact hw)
    (contOk_cont (hn _ List.mem_cons_self) fun l hl => by
      refine plainIs_seps hck (fun x hx => hg x (List.mem_cons_of_mem _ hx)) (fun x hx => hn x (List.mem_cons_of_mem _ hx))
        (fun x hx => hd x (List.mem_cons_of_mem _ hx)) (List.mem_flatMap.mpr ⟨n, hnn, last_tok hdx hl⟩)
        (yields_cons_last hC) ?_
      intro e
      subst e
      exact hC l (by simpa [Cst.yields] using hl))
  simpa [placeAll, gapsOf, placeC, Part.node?, kidItems, Node.itemsAll, plainIs0, Part.items, Cst.yields, Seps] using this

/-! ### Nodes -/

theorem node_seps {n : NT} {tag : Tag} {xs : List (Cst TokL)}
    (h : Derives n (.node tag (stripAll xs))) (hg : ∀ x ∈ xs, SepGood c x) : SepGood c (.node tag xs) := by
  intro pv B is rest hh hC
  simp only [Cst.yield] at hh ⊢
  rcases derives_inv h with ⟨a, tag', ss, cs, e, hp, hm⟩ | ⟨a, tag', t, e, hl⟩
  · cases e
    have hc := prods_checked _ hp
    have hne := (prods_firsts _ hp).1
    have hxs : ∃ y ys, xs = y :: ys := by
      cases xs with
      | cons y ys => exact ⟨y, ys, rfl⟩
      | nil =>
        simp only [stripAll] at hm
        cases hm
        exact absurd rfl hne
    obtain ⟨y, ys, rfl⟩ := hxs
    show Seps false pv B ((buildNode tag (placeAll (y :: ys))).items c ++ is) (Cst.yields (y :: ys) ++ rest)
    have hkids : ∀ z ∈ y :: ys, (∃ t, z = .tok t) ∨ ∃ n ∈ ss.flatMap Sym.nts, Derives n (strip z) := by
      intro z hz
      rcases matches_nts hm _ (mem_stripAll hz) with ⟨t, e⟩ | h
      · obtain ⟨u, e, _⟩ := strip_tok e
        exact .inl ⟨u, e⟩
      · exact .inr h
    have hfl : tag.isFields = false → ∀ l, (Cst.yields (y :: ys)).getLast? = some l → Seps false (some l.tok) true is rest := by
      intro e
      unfold ContOk at hC
      rw [if_neg (by simp [Cst.isFl, e])] at hC
      simpa [Cst.yield] using hC
    have hck := prods_seps _ hp
    simp only [sepsCheck] at hck
    simp only [prodCheck] at hc
    split at hc
    · -- a leaf
      rename_i s hs
      split at hc
      · rename_i tok
        simp only [Bool.and_eq_true] at hc
        have hf := fits_of_matches (xs := y :: ys) (by rfl) (by rfl) hm
        cases hf with
        | t e3 hf =>
          cases hf
          rename_i u
          have hsep : tag.seps = none := by
            cases tag <;> simp [Tag.leafText] at hs <;> rfl
          have hpl : tag.isPlainList = false := by
            cases tag <;> simp [Tag.leafText] at hs <;> rfl
          have hfi : tag.isFields = false := by
            cases tag <;> simp [Tag.leafText] at hs <;> rfl
          have hit : (buildNode tag (placeAll [.tok u])).items c =
              [.lit s (((annotateTag c none tag []).leafText).getD s)] := by
            unfold buildNode
            simp only [hsep, hpl, Node.items, itemsOf, hs, Bool.false_eq_true, if_false]
          rw [hit]
          exact ⟨hh u rfl, hfl hfi u rfl⟩
      · cases hc
    · rename_i hs
      split at hc
      · -- a list with separators
        rename_i sps hsep
        simp only [Bool.and_eq_true] at hc
        have hfr : frame c tag = none := by
          have := frame_skel c tag
          rw [Option.isNone_iff_eq_none.mp hc.2] at this
          simpa using this
        have hsome : tag.seps.isSome = true := by rw [hsep]; rfl
        have hsh := sepShape_of_form hc.1 hm
        simp only [hs, hsep, sepCheck, Bool.and_eq_true, Bool.or_eq_true, Bool.not_eq_true'] at hck
        have := sepIs_seps (c := c) hck.1 hck.2 (by
            intro hf
            cases tag <;> simp [Tag.isFields] at hf
            rfl) hsh (pv := pv) (B := B) (h := []) (pre := ⟨(placeC y).span.l, (placeC y).span.l⟩) (is := is) (rest := rest) hg
          (prods_noFl _ hp (by simp [hsep]) hm) (by
            intro t zs hz
            rcases hkids _ hz with ⟨_, e⟩ | ⟨n, h1, h2⟩
            · cases e
            · exact bounds_of h1 h2) (by
            intro t ht
            have := hh t ht
            simpa using this) (by
            split
            · next hf =>
              unfold ContOk at hC
              rw [if_pos (show (Cst.node tag (y :: ys)).isFl = true from hf)] at hC
              exact hC
            · next hf => exact hfl (by simpa using hf))
        have hit : (buildNode tag (placeAll (y :: ys))).items c =
            sepIs c tag [] (sepLocs ⟨(placeC y).span.l, (placeC y).span.l⟩ (placeAll (y :: ys))).1
              (kidItems c (y :: ys))
              (sepLocs ⟨(placeC y).span.l, (placeC y).span.l⟩ (placeAll (y :: ys))).2 := by
          unfold buildNode
          simp only [hsep, Node.items, itemsOf, setSeps_leaf, hs, setSeps_frame, hfr, setSeps_seps hsome,
            setSeps_sepIs]
          rfl
        rw [hit]
        exact this
      · rename_i hsep
        split at hc
        · -- a list without separators
          rename_i hpl
          simp only [Bool.and_eq_true] at hc
          have hfr : frame c tag = none := by
            have := frame_skel c tag
            rw [Option.isNone_iff_eq_none.mp hc.2] at this
            simpa using this
          have hnodes : ∀ z ∈ y :: ys, ∃ n ∈ ss.flatMap Sym.nts, Derives n (strip z) := by
            intro z hz
            rcases hkids _ hz with ⟨t, e⟩ | h
            · obtain ⟨n, hd⟩ := nodes_of_matches hc.1.2 hm _ (mem_stripAll hz)
              rw [e] at hd
              exact absurd (strip_derives hd) (by rintro ⟨_, _, h⟩; cases h)
            · exact h
          simp only [hs, hsep, hpl, if_true, plainCheck] at hck
          have hfi : tag.isFields = false := by
            cases tag <;> simp [Tag.isPlainList] at hpl <;> rfl
          have := plainIs0_seps (c := c) (l0 := (placeC y).span.l) hck hg
            (prods_noFl _ hp (by simp [hpl]) hm) hnodes hh (hfl hfi)
          have hit : (buildNode tag (placeAll (y :: ys))).items c =
              plainIs0 (⟨(placeC y).span.l, (placeC y).span.l⟩ :: gapsOf (placeAll (y :: ys)))
                ((((placeAll (y :: ys)).filterMap Part.node?).map Node.tag).zip (kidItems c (y :: ys))) := by
            unfold buildNode
            simp only [hsep, hpl, Node.items, itemsOf, hs, hfr, if_true]
            rfl
          rw [hit]
          exact this
        · -- a fixed sequence
          rename_i hpl
          simp only [Bool.and_eq_true] at hc
          have hsk := eq_of_beq hc.2
          rw [← frame_skel c tag] at hsk
          have hpl : tag.isPlainList = false := by simpa using hpl
          have hfi : tag.isFields = false := by
            cases tag <;> simp [Tag.seps] at hsep <;> rfl
          cases hfr : frame c tag with
          | none => rw [hfr] at hsk; cases hsk
          | some fr =>
            have hit : (buildNode tag (placeAll (y :: ys))).items c =
                fr.flatMap (slotItems (gapsOf (placeAll (y :: ys))) (kidItems c (y :: ys))) := by
              unfold buildNode
              simp only [hsep, hpl, Bool.false_eq_true, if_false, Node.items, itemsOf, hs, hfr]
              rfl
            rw [hit]
            refine slots_seps fr (frame_slots hp hs hsep hpl hfr) (fitsD_of_matches hc.1.2 hm) hg rfl ?_ (hfl hfi)
              (fun e => by cases e)
            refine ⟨rfl, fun t ht => hh t ?_⟩
            obtain ⟨u, us, e1, _⟩ := matches_first hm hne
            rw [stripAll_yields] at e1
            generalize Cst.yields (y :: ys) = l at ht e1 ⊢
            cases l with
            | nil => cases e1
            | cons => exact ht
  · cases xs with
    | nil => simp [stripAll] at e
    | cons y ys =>
      simp only [stripAll, Cst.node.injEq, List.cons.injEq] at e
      obtain ⟨rfl, e1, e2⟩ := e
      cases stripAll_nil e2
      obtain ⟨u, rfl, e3⟩ := strip_tok e1
      obtain ⟨hs, hsep, hpl, hch⟩ := leafTag_text hl
      have hfi : tag.isFields = false := by
        cases tag <;> simp [Tag.leafText] at hs <;> rfl
      have hit : (buildNode tag (placeAll [.tok u])).items c =
          [.lit (spell t) (((annotateTag c none tag []).leafText).getD (spell t))] := by
        unfold buildNode
        simp only [hsep, hpl, Node.items, itemsOf, hs, Bool.false_eq_true, if_false]
      show Seps false pv B ((buildNode tag (placeAll [.tok u])).items c ++ is) (u :: rest)
      rw [hit]
      refine ⟨hh u rfl, ?_⟩
      unfold ContOk at hC
      rw [if_neg (by simp [Cst.isFl, hfi])] at hC
      exact hC u rfl

mutual
theorem place_seps (c : Config) : ∀ (x : Cst TokL), ((∃ t, strip x = .tok t) ∨ ∃ n, Derives n (strip x)) → SepGood c x
  | .tok t, _ => sepGood_tok t
  | .node tag xs, h => by
    rcases h with ⟨t, h⟩ | ⟨n, h⟩
    · simp [strip] at h
    · refine node_seps h (place_sepss c xs ?_)
      rcases derives_inv h with ⟨a, tag', ss, cs, e, hp, hm⟩ | ⟨a, tag', t, e, hl⟩
      · simp only [strip, Cst.node.injEq] at e
        rw [e.2]
        exact matches_all hm
      · simp only [strip, Cst.node.injEq] at e
        rw [e.2]
        intro y hy
        exact .inl ⟨t, by simpa using hy⟩
theorem place_sepss (c : Config) : ∀ (xs : List (Cst TokL)),
    (∀ y ∈ stripAll xs, (∃ t, y = .tok t) ∨ ∃ n, Derives n y) → ∀ x ∈ xs, SepGood c x
  | [], _, x, h => nomatch h
  | y :: ys, hy, x, h => by
    simp only [stripAll] at hy
    rcases List.mem_cons.mp h with e | h
    · rw [e]
      exact place_seps c y (hy _ List.mem_cons_self)
    · exact place_sepss c ys (fun z hz => hy z (List.mem_cons_of_mem _ hz)) x h
end

/-! ### Chunks -/

theorem attach_seps (c : Config) {n : NT} {x : C} (h : Derives n x) {ps : List TokL} {rest : List Token}
    (hp : ps.map (·.tok) = x.yield ++ rest) : SepGood c (attach x ps).1 :=
  place_seps c _ (.inr ⟨n, by rw [(attach_ok x ps rest hp).1]; exact h⟩)

/-- The hints of a parsed source separate its tokens. -/
theorem parseLua_seps (c : Config) {src : Str} {tree : Node} (h : parseLua src = some tree)
    {toks : List TokL} {e : TokL} (hlex : lexLua src = some (toks ++ [e])) :
    Seps false none false (tree.items c) (toks ++ [e]) := by
  unfold parseLua at h
  simp only [Option.bind_eq_bind, Option.bind_eq_some_iff, Option.some.injEq, Prod.exists] at h
  obtain ⟨toks', hlex', sb, b, hc, rfl⟩ := h
  rw [hlex] at hlex'
  cases hlex'
  obtain ⟨h1, h2, h3⟩ := parseChunk_sound hc
  have hsb : ∀ x, sb = some x → Derives .sheBangLine x := by
    intro x hx
    obtain ⟨s, rfl⟩ := h1 x hx
    exact .leaf rfl
  generalize toks ++ [e] = us at h3
  have none_ok : ∀ t : Token, PairOk none t := fun t p hp => by cases hp
  cases sb with
  | none =>
    cases b with
    | none => simp [placeChunk, Node.items, itemsOf, Tag.leafText, frame, Tag.template, Fm.slots, El.slots, slotItems,
        Node.itemsAll, Tag.seps, Tag.isPlainList, plainIs0, Seps]
    | some x =>
      simp only [Option.toList_none, Option.toList_some, List.nil_append, Cst.yields, List.append_nil] at h3
      have hg := attach_seps c (h2 _ rfl) h3
      obtain ⟨_, k2, k3, k4, k5⟩ := attach_good c (by decide) (h2 _ rfl) h3
      have := hg none false [.gap ⟨(placeNode (attach x us).1).span.r, src.length⟩ []] (attach x us).2
        (fun _ _ => .inr (none_ok _)) (by
          unfold ContOk
          rw [if_neg (by simp [k5])]
          intro l hl
          trivial)
      rw [← k2, k4] at this
      exact this
  | some s =>
    have hs := hsb s rfl
    cases b with
    | none =>
      simp only [Option.toList_none, Option.toList_some, List.append_nil, Cst.yields] at h3
      have hg := attach_seps c hs h3
      obtain ⟨_, k2, k3, k4, k5⟩ := attach_good c (by decide) hs h3
      have := hg none false [.gap ⟨(placeNode (attach s us).1).span.r, src.length⟩ []] (attach s us).2
        (fun _ _ => .inr (none_ok _)) (by
          unfold ContOk
          rw [if_neg (by simp [k5])]
          intro l hl
          trivial)
      rw [← k2, k4] at this
      exact this
    | some x =>
      simp only [Option.toList_some, Cst.yields, List.append_nil, List.singleton_append, List.append_assoc] at h3
      have hg := attach_seps c hs h3
      obtain ⟨_, k2, k3, k4, k5⟩ := attach_good c (by decide) hs h3
      have hg' := attach_seps c (h2 _ rfl) k3
      obtain ⟨_, l2, l3, l4, l5⟩ := attach_good c (by decide) (h2 _ rfl) k3
      obtain ⟨w, hw⟩ := h1 s rfl
      have := hg none false (.gap ⟨(placeNode (attach s us).1).span.r, (placeNode (attach x (attach s us).2).1).span.l⟩ [] ::
        ((placeC (attach x (attach s us).2).1).items c ++
        [.gap ⟨(placeNode (attach x (attach s us).2).1).span.r, src.length⟩ []])) (attach s us).2
        (fun _ _ => .inr (none_ok _)) (by
          unfold ContOk
          rw [if_neg (by simp [k5])]
          intro l hl
          have h5 := hg' (some l.tok) (true && ((placeNode (attach s us).1).span.r == (placeNode (attach x (attach s us).2).1).span.l || !([] : Str).isEmpty)) [.gap ⟨(placeNode (attach x (attach s us).2).1).span.r, src.length⟩ []]
            (attach x (attach s us).2).2 (fun t ht => by
              right
              intro p hp
              cases hp
              have hl' : l.tok = .sheBang w := by
                have e1 := (attach_ok s us _ h3).1
                have e2 := strip_yield (attach s us).1
                have e3 : s.yield = [.sheBang w] := by rw [hw]; rfl
                rw [e1, e3] at e2
                generalize (attach s us).1.yield = ys at e2 hl
                cases ys with
                | nil => cases hl
                | cons y ys =>
                  cases ys with
                  | nil => cases hl; simpa using e2.symm
                  | cons => simp at e2
              rw [hl']
              cases hh : headOf t.tok <;> simp [adj, hh, joins, joinsCh, fuse]) (by
              unfold ContOk
              rw [if_neg (by simp [l5])]
              intro l hl
              trivial)
          rw [← l2] at h5
          exact h5)
      rw [← k2, k4, l4] at this
      exact this

end Luafmt
