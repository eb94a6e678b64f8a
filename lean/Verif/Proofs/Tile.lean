import Verif.Proofs.ParserSound
import Verif.Proofs.Items
import Verif.Spec.Lex

/-
The items of a parsed tree visit its tokens in order, with every gap between two tokens.
-/
namespace Luafmt
open Spec

/-- The texts that may be printed for a token. -/
def TokOut (c : Config) (t : Token) (out : Str) : Prop :=
  out = spell t ∨
  (∃ s, t = .charString s ∧ c.bool .convertCharstringToNormalstring = some true ∧
    out = spell (.normalString (charToNormal s))) ∨
  (isFieldSep t = true ∧ c.str .fieldSeparator = some out)

/-- The next token closes a table. -/
def AtCurly (ts : List TokL) : Prop := ∃ u us, ts = u :: us ∧ u.tok = .closeCurly

/-- `Tile c a ts is b ts'`: from position `a` with the tokens `ts` ahead, the items lead to position `b`
with the tokens `ts'` ahead. -/
inductive Tile (c : Config) : Nat → List TokL → List Item → Nat → List TokL → Prop
  | nil {a : Nat} {ts : List TokL} : Tile c a ts [] a ts
  | here {a b : Nat} {ts ts' : List TokL} {h : Str} {is : List Item} :
      Tile c a ts is b ts' → Tile c a ts (.gap ⟨a, a⟩ h :: is) b ts'
  | gap {a b : Nat} {t : TokL} {ts ts' : List TokL} {h : Str} {is : List Item} :
      Tile c t.l (t :: ts) is b ts' → Tile c a (t :: ts) (.gap ⟨a, t.l⟩ h :: is) b ts'
  | extra {a b : Nat} {ts ts' : List TokL} {h : Str} {is : List Item} :
      Tile c a ts is b ts' → Tile c a ts (.extra h :: is) b ts'
  | lit {b : Nat} {t : TokL} {ts ts' : List TokL} {src out : Str} {is : List Item} :
      src = spell t.tok → TokOut c t.tok out → Tile c t.r ts is b ts' →
      Tile c t.l (t :: ts) (.lit src out :: is) b ts'
  | trailNone {a b : Nat} {ts ts' : List TokL} {isF : Bool} {out : Str} {is : List Item} :
      (isF = true → out = (c.str .fieldSeparator).getD [] ∧ AtCurly ts) →
      Tile c a ts is b ts' → Tile c a ts (.trail isF [] out :: is) b ts'
  | trail {b : Nat} {t : TokL} {ts ts' : List TokL} {out : Str} {is : List Item} :
      isFieldSep t.tok = true → out = (c.str .fieldSeparator).getD (spell t.tok) → AtCurly ts → Tile c t.r ts is b ts' →
      Tile c t.l (t :: ts) (.trail true (spell t.tok) out :: is) b ts'

theorem Tile.append {c : Config} {a m b : Nat} {ts us vs : List TokL} {is js : List Item}
    (h : Tile c a ts is m us) (h' : Tile c m us js b vs) : Tile c a ts (is ++ js) b vs := by
  induction h with
  | nil => exact h'
  | here _ ih => exact .here (ih h')
  | gap _ ih => exact .gap (ih h')
  | extra _ ih => exact .extra (ih h')
  | lit h1 h2 _ ih => exact .lit h1 h2 (ih h')
  | trailNone h1 _ ih => exact .trailNone h1 (ih h')
  | trail h1 h2 h3 _ ih => exact .trail h1 h2 h3 (ih h')

theorem Tile.split {c : Config} {is js : List Item} : ∀ {a b : Nat} {ts vs : List TokL},
    Tile c a ts (is ++ js) b vs → ∃ m us, Tile c a ts is m us ∧ Tile c m us js b vs := by
  induction is with
  | nil => intro a b ts vs h; exact ⟨a, ts, .nil, h⟩
  | cons i is ih =>
    intro a b ts vs h
    rw [List.cons_append] at h
    cases h with
    | here h => obtain ⟨m, us, h1, h2⟩ := ih h; exact ⟨m, us, .here h1, h2⟩
    | gap h => obtain ⟨m, us, h1, h2⟩ := ih h; exact ⟨m, us, .gap h1, h2⟩
    | extra h => obtain ⟨m, us, h1, h2⟩ := ih h; exact ⟨m, us, .extra h1, h2⟩
    | lit e1 e2 h => obtain ⟨m, us, h1, h2⟩ := ih h; exact ⟨m, us, .lit e1 e2 h1, h2⟩
    | trailNone e1 h => obtain ⟨m, us, h1, h2⟩ := ih h; exact ⟨m, us, .trailNone e1 h1, h2⟩
    | trail e1 e2 e3 h => obtain ⟨m, us, h1, h2⟩ := ih h; exact ⟨m, us, .trail e1 e2 e3 h1, h2⟩

/-! ### Frames and productions -/

/-- A slot without its hint. -/
def Slot.skel : Slot → Option Sh
  | .lit s => some (.lit s)
  | .gap i _ => some (.gap i)
  | .kid i => some (.kid i)
  | .extra _ => none

/-- The slots that a right-hand side asks for after its first part: a gap and a part alternate. -/
def wantRest : Nat → Nat → List Sym → List Sh
  | _, _, [] => []
  | g, k, .t tok :: ss => .gap g :: .lit (spell tok) :: wantRest (g + 1) k ss
  | g, k, _ :: ss => .gap g :: .kid k :: wantRest (g + 1) (k + 1) ss

/-- The slots that a right-hand side asks for. -/
def want : List Sym → List Sh
  | [] => []
  | .t tok :: ss => .lit (spell tok) :: wantRest 0 0 ss
  | _ :: ss => .kid 0 :: wantRest 0 1 ss

def Sym.isTN : Sym → Bool
  | .t _ | .n _ => true
  | _ => false

def Sym.isNL : Sym → Bool
  | .n _ | .list _ => true
  | _ => false

/-- The separator token of a separated list. -/
def sepTok : Tag → Token
  | .funcName _ | .funcNameItems _ => .period
  | _ => .comma

def sepForm (tag : Tag) : List Sym → Bool
  | [.sep _ s] => s == sepTok tag
  | [.n _] => true
  | [.n _, .t s, .sep _ s'] => s == sepTok tag && s' == sepTok tag
  | [.sepEnd _] => tag.isFields
  | _ => false

/-- What is checked of every production. -/
def prodCheck (p : NT × Tag × List Sym) : Bool :=
  match p.2.1.leafText with
  | some s =>
    match p.2.2 with
    | [.t tok] => s == spell tok && (annotateTag Config.default none p.2.1 []).leafText == some s
    | _ => false
  | none =>
    match p.2.1.seps with
    | some _ => sepForm p.2.1 p.2.2 && (frame Config.default p.2.1).isNone
    | none =>
      if p.2.1.isPlainList then !p.2.2.isEmpty && p.2.2.all Sym.isNL && (frame Config.default p.2.1).isNone
      else !p.2.2.isEmpty && p.2.2.all Sym.isTN &&
        (frame Config.default p.2.1).map (·.filterMap Slot.skel) == some (want p.2.2)

theorem prods_checked : ∀ p ∈ prods, prodCheck p = true := by decide +kernel

theorem frame_skel (c : Config) (t : Tag) :
    (frame c t).map (·.filterMap Slot.skel) = (frame Config.default t).map (·.filterMap Slot.skel) := by
  cases t <;> rfl

/-- The items of a slot without hint. -/
def shItems (locs : List Loc) (ks : List (List Item)) : Sh → List Item
  | .lit s => [.lit s s]
  | .gap i => [.gap (locAt locs i) []]
  | .kid i => ks[i]?.getD []

theorem Tile.of_skel {c : Config} {locs : List Loc} {ks : List (List Item)} {S : List Slot} :
    ∀ {a b : Nat} {ts vs : List TokL},
    Tile c a ts ((S.filterMap Slot.skel).flatMap (shItems locs ks)) b vs →
    Tile c a ts (S.flatMap (slotItems locs ks)) b vs := by
  induction S with
  | nil => intro a b ts vs h; exact h
  | cons s S ih =>
    intro a b ts vs h
    cases s with
    | lit s =>
      simp only [List.filterMap_cons, Slot.skel, List.flatMap_cons, shItems, List.singleton_append] at h
      simp only [List.flatMap_cons, slotItems, List.singleton_append]
      cases h with
      | lit e1 e2 h => exact .lit e1 e2 (ih h)
    | gap i x =>
      simp only [List.filterMap_cons, Slot.skel, List.flatMap_cons, shItems, List.singleton_append] at h
      simp only [List.flatMap_cons, slotItems, List.singleton_append]
      generalize locAt locs i = l at h
      cases h with
      | here h => exact .here (ih h)
      | gap h => exact .gap (ih h)
    | kid i =>
      simp only [List.filterMap_cons, Slot.skel, List.flatMap_cons, shItems] at h
      simp only [List.flatMap_cons, slotItems]
      obtain ⟨m, us, h1, h2⟩ := h.split
      exact h1.append (ih h2)
    | extra x =>
      simp only [List.filterMap_cons, Slot.skel] at h
      simp only [List.flatMap_cons, slotItems, List.singleton_append]
      exact .extra (ih h)

/-! ### Parts -/

/-- The items of a part. -/
def Part.items (c : Config) : Part → List Item
  | .tok t => [.lit (spell t.tok) (spell t.tok)]
  | .node n => n.items c

mutual
/-- Forget the positions. -/
def strip : Cst TokL → C
  | .tok t => .tok t.tok
  | .node tag cs => .node tag (stripAll cs)
def stripAll : List (Cst TokL) → List C
  | [] => []
  | c :: cs => strip c :: stripAll cs
end

/-- A field list. -/
def Cst.isFl {α : Type} : Cst α → Bool
  | .node t _ => t.isFields
  | .tok _ => false

/-- What must follow a part. -/
def RestOk (x : Cst TokL) (rest : List TokL) : Prop := x.isFl = true → AtCurly rest

/-- A part tiles its tokens. -/
def Good (c : Config) (x : Cst TokL) : Prop :=
  (∃ t ts, x.yield = t :: ts ∧ (placeC x).span.l = t.l) ∧
  ∀ rest, RestOk x rest → Tile c (placeC x).span.l (x.yield ++ rest) ((placeC x).items c) (placeC x).span.r rest

/-- The end of the last part, or `a`. -/
def endOf (a : Nat) : List (Cst TokL) → Nat
  | [] => a
  | x :: xs => endOf (placeC x).span.r xs

theorem Good.gap {c : Config} {x : Cst TokL} (h : Good c x) {a b : Nat} {rest vs : List TokL} {hint : Str}
    {is : List Item} (hr : RestOk x rest) (ht : Tile c (placeC x).span.r rest is b vs) :
    Tile c a (x.yield ++ rest) (.gap ⟨a, (placeC x).span.l⟩ hint :: ((placeC x).items c ++ is)) b vs := by
  obtain ⟨⟨t, ts, e1, e2⟩, h2⟩ := h
  have := (h2 rest hr).append ht
  rw [e1, e2] at this
  rw [e1, e2]
  exact .gap this

/-- The parts agree with the symbols of a right-hand side without lists. -/
inductive FitsRhs : List Sym → List (Cst TokL) → Prop
  | nil : FitsRhs [] []
  | t {tok : Token} {t : TokL} {ss : List Sym} {xs : List (Cst TokL)} : t.tok = tok → FitsRhs ss xs →
      FitsRhs (.t tok :: ss) (.tok t :: xs)
  | n {n : NT} {tag : Tag} {ys : List (Cst TokL)} {ss : List Sym} {xs : List (Cst TokL)} :
      (tag.isFields = true → ∃ ss', ss = .t .closeCurly :: ss') → FitsRhs ss xs →
      FitsRhs (.n n :: ss) (.node tag ys :: xs)

/-- A derivation ends in a production with an action or in a leaf. -/
theorem derives_inv {n : NT} {c : C} : Derives n c →
    (∃ a tag ss cs, c = .node tag cs ∧ (a, tag, ss) ∈ prods ∧ Matches ss cs) ∨
    (∃ a tag t, c = .node tag [.tok t] ∧ leafTag t = some (a, tag))
  | .chain _ h => derives_inv h
  | .prod hp hm => .inl ⟨_, _, _, _, rfl, hp, hm⟩
  | .leaf hl => .inr ⟨_, _, _, rfl, hl⟩

theorem derives_node {n : NT} {c : C} (h : Derives n c) : ∃ tag cs, c = .node tag cs := by
  rcases derives_inv h with ⟨_, tag, _, cs, e, _⟩ | ⟨_, tag, t, e, _⟩
  · exact ⟨_, _, e⟩
  · exact ⟨_, _, e⟩

theorem strip_node {x : Cst TokL} {tag : Tag} {cs : List C} (h : strip x = .node tag cs) :
    ∃ ys, x = .node tag ys ∧ stripAll ys = cs := by
  cases x with
  | tok t => simp [strip] at h
  | node tag' ys => simp [strip] at h; exact ⟨ys, by rw [h.1], h.2⟩

theorem strip_tok {x : Cst TokL} {t : Token} (h : strip x = .tok t) : ∃ u, x = .tok u ∧ u.tok = t := by
  cases x with
  | tok u => simp [strip] at h; exact ⟨u, rfl, h⟩
  | node tag' ys => simp [strip] at h

theorem strip_derives {n : NT} {x : Cst TokL} (h : Derives n (strip x)) : ∃ tag ys, x = .node tag ys := by
  obtain ⟨tag, cs, e⟩ := derives_node h
  obtain ⟨ys, rfl, _⟩ := strip_node e
  exact ⟨_, _, rfl⟩

/-- A field list is followed by a closing brace. -/
def flOk : List Sym → Bool
  | [] => true
  | .n n :: ss => (if n = .fieldList then (match ss with
      | .t t :: _ => decide (t = .closeCurly)
      | _ => false) else true) && flOk ss
  | .list n :: ss | .sep n _ :: ss | .sepEnd n :: ss => decide (n ≠ .fieldList) && flOk ss
  | .t _ :: ss => flOk ss

theorem prods_flOk : ∀ p ∈ prods, flOk p.2.2 = true := by decide +kernel

theorem derives_fields : ∀ {n : NT} {x : C}, Derives n x → x.isFl = true → n = .fieldList
  | _, _, .chain hc h, hf => by
    have := derives_fields h hf
    subst this
    have : ∀ p ∈ chains, p.2 ≠ .fieldList := by decide +kernel
    exact absurd rfl (this _ hc)
  | _, _, .prod hp _, hf => by
    have : ∀ p ∈ prods, p.2.1.isFields = true → p.1 = .fieldList := by decide +kernel
    exact this _ hp hf
  | _, _, .leaf hl, hf => by
    unfold leafTag at hl
    split at hl <;> cases hl <;> simp [Cst.isFl, Tag.isFields] at hf

theorem isFl_strip (x : Cst TokL) : (strip x).isFl = x.isFl := by
  cases x <;> simp [strip, Cst.isFl]

theorem fits_of_matches {ss : List Sym} {xs : List (Cst TokL)} (hs : ss.all Sym.isTN = true) (hfl : flOk ss = true)
    (h : Matches ss (stripAll xs)) : FitsRhs ss xs := by
  induction ss generalizing xs with
  | nil =>
    cases xs with
    | nil => exact .nil
    | cons x xs => simp only [stripAll] at h; cases h
  | cons s ss ih =>
    simp only [List.all_cons, Bool.and_eq_true] at hs
    cases s with
    | t tok =>
      cases xs with
      | nil => simp only [stripAll] at h; cases h
      | cons x xs =>
        simp only [stripAll] at h
        generalize he : strip x = sx at h
        cases h with
        | t h =>
          obtain ⟨u, rfl, e⟩ := strip_tok he
          exact .t e (ih hs.2 (by simpa [flOk] using hfl) h)
    | n n =>
      cases xs with
      | nil => simp only [stripAll] at h; cases h
      | cons x xs =>
        simp only [stripAll] at h
        cases h with
        | n hd h =>
          obtain ⟨tag, ys, rfl⟩ := strip_derives hd
          simp only [flOk, Bool.and_eq_true] at hfl
          refine .n (fun hf => ?_) (ih hs.2 hfl.2 h)
          have hn := derives_fields hd (by rw [isFl_strip]; exact hf)
          rw [if_pos hn] at hfl
          have h1 := hfl.1
          split at h1
          · exact ⟨_, by rw [of_decide_eq_true h1]⟩
          · cases h1
    | list n => simp [Sym.isTN] at hs
    | sep n t => simp [Sym.isTN] at hs
    | sepEnd n => simp [Sym.isTN] at hs

/-- The kids among the parts, as item lists. -/
def kidItems (c : Config) (xs : List (Cst TokL)) : List (List Item) :=
  Node.itemsAll c ((placeAll xs).filterMap Part.node?)

/-- What follows a part of a right-hand side. -/
theorem FitsRhs.restOk {tag : Tag} {ys xs : List (Cst TokL)} {ss : List Sym} {vs : List TokL}
    (h : tag.isFields = true → ∃ ss', ss = .t .closeCurly :: ss') (hf : FitsRhs ss xs) :
    RestOk (.node tag ys) (Cst.yields xs ++ vs) := by
  intro ht
  obtain ⟨ss', rfl⟩ := h ht
  cases hf with
  | t e hf => exact ⟨_, _, rfl, e⟩

theorem RestOk.tok {t : TokL} {vs : List TokL} : RestOk (.tok t) vs := by
  intro h; cases h

theorem RestOk.of_not {x : Cst TokL} {vs : List TokL} (hx : x.isFl = false) : RestOk x vs := by
  intro h; rw [hx] at h; cases h

theorem wantRest_tile {c : Config} {locs : List Loc} {ks : List (List Item)} {ss : List Sym} :
    ∀ {xs : List (Cst TokL)} {g k : Nat} {p : Part} {vs : List TokL}, FitsRhs ss xs → (∀ x ∈ xs, Good c x) →
    locs.drop g = gapsOf (p :: placeAll xs) → ks.drop k = kidItems c xs →
    Tile c p.span.r (Cst.yields xs ++ vs) ((wantRest g k ss).flatMap (shItems locs ks))
      (endOf p.span.r xs) vs := by
  induction ss with
  | nil =>
    intro xs g k p vs hf _ _ _
    cases hf
    exact .nil
  | cons s ss ih =>
    intro xs g k p vs hf hg hl hk
    cases hf with
    | @t tok t ss xs e hf =>
      have hx := hg _ List.mem_cons_self
      have hrest : ∀ x ∈ xs, Good c x := fun x hx => hg x (List.mem_cons_of_mem _ hx)
      simp only [placeAll, gapsOf] at hl
      have hl1 : locAt locs g = ⟨p.span.r, (placeC (.tok t)).span.l⟩ := by
        have := congrArg List.head? hl
        simp only [List.head?_drop, List.head?_cons] at this
        simp [locAt, this]
      have hl2 : locs.drop (g + 1) = gapsOf (placeC (.tok t) :: placeAll xs) := by
        have := congrArg List.tail hl
        simpa [List.tail_drop] using this
      have hk2 : ks.drop k = kidItems c xs := by
        rw [hk]; simp [kidItems, placeAll, placeC, Part.node?, List.filterMap_cons]
      have := ih (p := placeC (.tok t)) (vs := vs) hf hrest hl2 hk2
      simp only [wantRest, List.flatMap_cons, shItems, List.singleton_append, hl1, Cst.yields, List.append_assoc,
        endOf]
      have h := hx.gap (a := p.span.r) (hint := []) .tok this
      simpa [placeC, Part.items, e] using h
    | @n n tag ys ss xs hcl hf =>
      have hx := hg _ List.mem_cons_self
      have hrest : ∀ x ∈ xs, Good c x := fun x hx => hg x (List.mem_cons_of_mem _ hx)
      simp only [placeAll, gapsOf] at hl
      have hl1 : locAt locs g = ⟨p.span.r, (placeC (.node tag ys)).span.l⟩ := by
        have := congrArg List.head? hl
        simp only [List.head?_drop, List.head?_cons] at this
        simp [locAt, this]
      have hl2 : locs.drop (g + 1) = gapsOf (placeC (.node tag ys) :: placeAll xs) := by
        have := congrArg List.tail hl
        simpa [List.tail_drop] using this
      have hk0 : ks.drop k = (placeC (.node tag ys)).items c :: kidItems c xs := by
        rw [hk]; simp [kidItems, placeAll, placeC, Part.node?, Node.itemsAll, Part.items]
      have hk1 : ks[k]?.getD [] = (placeC (.node tag ys)).items c := by
        have := congrArg List.head? hk0
        simp only [List.head?_drop, List.head?_cons] at this
        simp [this]
      have hk2 : ks.drop (k + 1) = kidItems c xs := by
        have := congrArg List.tail hk0
        simpa [List.tail_drop] using this
      have := ih (p := placeC (.node tag ys)) (vs := vs) hf hrest hl2 hk2
      simp only [wantRest, List.flatMap_cons, shItems, hl1, hk1, Cst.yields,
        List.append_assoc, endOf, List.cons_append]
      exact hx.gap (a := p.span.r) (hint := []) (hf.restOk hcl) this

theorem want_tile {c : Config} {locs : List Loc} {ks : List (List Item)} {ss : List Sym} {x : Cst TokL}
    {xs : List (Cst TokL)} {vs : List TokL} (hf : FitsRhs ss (x :: xs)) (hg : ∀ y ∈ x :: xs, Good c y)
    (hl : locs = gapsOf (placeAll (x :: xs))) (hk : ks = kidItems c (x :: xs)) :
    Tile c (placeC x).span.l (Cst.yields (x :: xs) ++ vs) ((want ss).flatMap (shItems locs ks))
      (endOf (placeC x).span.r xs) vs := by
  have hx := hg _ List.mem_cons_self
  have hrest : ∀ x ∈ xs, Good c x := fun x hx => hg x (List.mem_cons_of_mem _ hx)
  cases hf with
  | @t tok t ss xs e hf =>
    have := wantRest_tile (p := placeC (.tok t)) (g := 0) (k := 0) (vs := vs) (ks := ks) hf hrest hl
      (by rw [hk]; simp [kidItems, placeAll, placeC, Part.node?, List.filterMap_cons])
    simp only [want, List.flatMap_cons, shItems, List.singleton_append, Cst.yields, List.append_assoc]
    have h := (hx.2 _ .tok).append this
    simpa [placeC, Part.items, e] using h
  | @n n tag ys ss xs hcl hf =>
    have hk0 : ks = (placeC (.node tag ys)).items c :: kidItems c xs := by
      rw [hk]; simp [kidItems, placeAll, placeC, Part.node?, Node.itemsAll, Part.items]
    have := wantRest_tile (p := placeC (.node tag ys)) (g := 0) (k := 1) (vs := vs) (ks := ks) hf hrest hl
      (by rw [hk0]; rfl)
    have hk1 : ks[0]?.getD [] = (placeC (.node tag ys)).items c := by rw [hk0]; rfl
    simp only [want, List.flatMap_cons, shItems, hk1, Cst.yields, List.append_assoc]
    exact (hx.2 _ (hf.restOk hcl)).append this

/-! ### Lists -/

theorem plainIs_tile {c : Config} {xs : List (Cst TokL)} : ∀ {p : Part} {vs : List TokL}
    {tks : List (Tag × List Item)}, (∀ x ∈ xs, Good c x) → (∀ x ∈ xs, x.isFl = false) →
    tks.map Prod.snd = (placeAll xs).map (Part.items c) →
    Tile c p.span.r (Cst.yields xs ++ vs) (plainIs (gapsOf (p :: placeAll xs)) tks) (endOf p.span.r xs) vs := by
  induction xs with
  | nil =>
    intro p vs tks _ _ ht
    simp only [placeAll, List.map_nil, List.map_eq_nil_iff] at ht
    subst ht
    exact .nil
  | cons x xs ih =>
    intro p vs tks hg hn ht
    cases tks with
    | nil => simp [placeAll] at ht
    | cons tk tks =>
      obtain ⟨t, k⟩ := tk
      simp only [placeAll, List.map_cons, List.cons.injEq] at ht
      obtain ⟨rfl, ht⟩ := ht
      have hx := hg _ List.mem_cons_self
      have := ih (p := placeC x) (vs := vs) (fun x hx => hg x (List.mem_cons_of_mem _ hx))
        (fun x hx => hn x (List.mem_cons_of_mem _ hx)) ht
      simp only [placeAll, gapsOf, plainIs, Cst.yields, List.append_assoc, endOf]
      exact hx.gap (.of_not (hn _ List.mem_cons_self)) this

theorem plainIs0_tile {c : Config} {x : Cst TokL} {xs : List (Cst TokL)} {vs : List TokL}
    {tks : List (Tag × List Item)} (hg : ∀ y ∈ x :: xs, Good c y)
    (hn : ∀ y ∈ x :: xs, y.isFl = false) (ht : tks.map Prod.snd = (placeAll (x :: xs)).map (Part.items c)) :
    Tile c (placeC x).span.l (Cst.yields (x :: xs) ++ vs)
      (plainIs0 (⟨(placeC x).span.l, (placeC x).span.l⟩ :: gapsOf (placeAll (x :: xs))) tks)
      (endOf (placeC x).span.r xs) vs := by
  cases tks with
  | nil => simp [placeAll] at ht
  | cons tk tks =>
    obtain ⟨t, k⟩ := tk
    simp only [placeAll, List.map_cons, List.cons.injEq] at ht
    obtain ⟨rfl, ht⟩ := ht
    have hx := hg _ List.mem_cons_self
    have := plainIs_tile (p := placeC x) (vs := vs) (fun x hx => hg x (List.mem_cons_of_mem _ hx))
        (fun x hx => hn x (List.mem_cons_of_mem _ hx)) ht
    simp only [placeAll, plainIs0, Cst.yields, List.append_assoc]
    exact .here ((hx.2 _ (.of_not (hn _ List.mem_cons_self))).append this)

/-- The parts of a separated list. -/
inductive SepShape (tag : Tag) : List (Cst TokL) → Prop
  | one (t : Tag) (ys : List (Cst TokL)) : SepShape tag [.node t ys]
  | trail (t : Tag) (ys : List (Cst TokL)) (s : TokL) : tag.isFields = true → isFieldSep s.tok = true →
      SepShape tag [.node t ys, .tok s]
  | cons (t : Tag) (ys : List (Cst TokL)) (s : TokL) (xs : List (Cst TokL)) :
      (s.tok = sepTok tag ∨ (tag.isFields = true ∧ isFieldSep s.tok = true)) → SepShape tag xs →
      SepShape tag (.node t ys :: .tok s :: xs)

theorem sepShape_ne {tag : Tag} {xs : List (Cst TokL)} (h : SepShape tag xs) : ∃ y ys, xs = y :: ys := by
  cases h <;> exact ⟨_, _, rfl⟩

theorem sepText_spell {t : Token} (h : t = .comma ∨ t = .semicolon ∨ t = .period) : sepText t = spell t := by
  rcases h with rfl | rfl | rfl <;> rfl

theorem isFieldSep_cases {t : Token} (h : isFieldSep t = true) : t = .comma ∨ t = .semicolon := by
  simpa [isFieldSep] using h

theorem sepTok_cases (t : Tag) : sepTok t = .comma ∨ sepTok t = .period := by
  unfold sepTok; split <;> simp

theorem separator_out {c : Config} {tag : Tag} (hs : tag.seps.isSome = true) {s : Token}
    (h : s = sepTok tag ∨ (tag.isFields = true ∧ isFieldSep s = true)) :
    TokOut c s ((separator c tag).getD (spell s)) := by
  cases tag <;> simp [Tag.seps] at hs <;> simp only [separator, sepTok, Tag.isFields] at h ⊢
  case fields =>
    have hf : isFieldSep s = true := by
      rcases h with rfl | h
      · rfl
      · exact h.2
    cases hc : c.str .fieldSeparator with
    | none => exact .inl rfl
    | some v => exact .inr (.inr ⟨hf, hc⟩)
  all_goals
    rcases h with rfl | h
    · exact .inl rfl
    · simp at h

theorem placeAll_ne {x : Cst TokL} {xs : List (Cst TokL)} :
    ∃ p ps, placeAll (x :: xs) = p :: ps ∧ p = placeC x := ⟨_, _, rfl, rfl⟩

theorem sepIs_ne {c : Config} {tag : Tag} {h : Str} {pre : Loc} {xs : List (Cst TokL)} (hs : SepShape tag xs) :
    (sepIs c tag h (sepLocs pre (placeAll xs)).1 (kidItems c xs) (sepLocs pre (placeAll xs)).2).isEmpty
      = false := by
  cases hs with
  | one t ys => simp [placeAll, placeC, sepLocs, kidItems, Part.node?, Node.itemsAll, sepIs]
  | trail t ys s _ _ => simp [placeAll, placeC, sepLocs, kidItems, Part.node?, Node.itemsAll, sepIs]
  | cons t ys s xs _ _ => simp [placeAll, placeC, sepLocs, kidItems, Part.node?, Node.itemsAll, sepIs]

theorem sepIs_tile {c : Config} {tag : Tag} (ht : tag.seps.isSome = true) {xs : List (Cst TokL)}
    (hs : SepShape tag xs) : ∀ {a e : Nat} {h : Str} {vs : List TokL}, (∀ x ∈ xs, Good c x) →
    (∀ x ∈ xs, x.isFl = false) → (tag.isFields = true → AtCurly vs) →
    Tile c a (Cst.yields xs ++ vs)
      (sepIs c tag h (sepLocs ⟨a, ((placeAll xs).head?.map (·.span.l)).getD 0⟩ (placeAll xs)).1 (kidItems c xs)
        (sepLocs ⟨a, ((placeAll xs).head?.map (·.span.l)).getD 0⟩ (placeAll xs)).2)
      (endOf e xs) vs := by
  induction hs with
  | one t ys =>
    intro a e h vs hg hn hc
    have hx := hg _ List.mem_cons_self
    have hout : tag.isFields = true → (separator c tag).getD [] = (c.str .fieldSeparator).getD [] ∧ AtCurly vs := by
      intro hf
      refine ⟨?_, hc hf⟩
      cases tag <;> simp [Tag.isFields, separator] at hf ⊢
    have := hx.gap (a := a) (hint := h) (rest := vs) (vs := vs) (.of_not (hn _ List.mem_cons_self))
      (.here (h := []) (.trailNone (isF := tag.isFields) (out := (separator c tag).getD []) hout .nil))
    simpa [placeAll, sepLocs, kidItems, placeC, Part.node?, Node.itemsAll, sepIs, Cst.yields, endOf, Part.items]
      using this
  | trail t ys s hf hsep =>
    intro a e h vs hg hn hc
    have hx := hg _ List.mem_cons_self
    have hout : (separator c tag).getD (spell s.tok) = (c.str .fieldSeparator).getD (spell s.tok) := by
      cases tag <;> simp [Tag.isFields, separator] at hf ⊢
    have hsp : sepText s.tok = spell s.tok := by
      rcases isFieldSep_cases hsep with e | e
      · exact sepText_spell (.inl e)
      · exact sepText_spell (.inr (.inl e))
    have := hx.gap (a := a) (hint := h) (rest := s :: vs) (vs := vs) (.of_not (hn _ List.mem_cons_self))
      (.gap (h := []) (.trail hsep hout (hc hf) .nil))
    simpa [placeAll, sepLocs, kidItems, placeC, Part.node?, Node.itemsAll, sepIs, Cst.yields, Cst.yield, endOf,
      Part.items, Part.span, List.filterMap_cons, hsp, hf] using this
  | cons t ys s xs hsep hsh ih =>
    intro a e h vs hg hn hc
    have hx := hg _ List.mem_cons_self
    have ih' := ih (a := s.r) (e := s.r) (h := elementHint tag) (vs := vs)
      (fun x hx => hg x (List.mem_cons_of_mem _ (List.mem_cons_of_mem _ hx)))
      (fun x hx => hn x (List.mem_cons_of_mem _ (List.mem_cons_of_mem _ hx))) hc
    have hsp : sepText s.tok = spell s.tok := by
      rcases hsep with e | ⟨_, e⟩
      · rcases sepTok_cases tag with e' | e'
        · exact sepText_spell (.inl (e.trans e'))
        · exact sepText_spell (.inr (.inr (e.trans e')))
      · rcases isFieldSep_cases e with e | e
        · exact sepText_spell (.inl e)
        · exact sepText_spell (.inr (.inl e))
    have hne := sepIs_ne (c := c) (h := elementHint tag)
      (pre := ⟨s.r, ((placeAll xs).head?.map (·.span.l)).getD 0⟩) hsh
    obtain ⟨y, ys', rfl⟩ := sepShape_ne hsh
    have := hx.gap (a := a) (hint := h) (rest := s :: (Cst.yields (y :: ys') ++ vs))
      (.of_not (hn _ List.mem_cons_self)) (.gap (h := []) (.lit rfl (separator_out (c := c) ht hsep) ih'))
    simp only [placeAll, List.head?_cons, Option.map_some, Option.getD_some] at hne this
    simp only [placeAll, sepLocs, kidItems, placeC, Part.node?, Node.itemsAll, sepIs, Cst.yields, Cst.yield, endOf,
      Part.items, Part.span, List.filterMap_cons, hsp, List.head?_cons, Option.map_some, Option.getD_some] at this hne ⊢
    rw [hne]
    simpa using this

end Luafmt
