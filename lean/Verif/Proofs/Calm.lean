import Verif.Proofs.MarkWrite
import Verif.Proofs.SepsAll
import Verif.Proofs.SameTree

/-
Parsed trees have the form that `writeTree_marks` asks for.
-/
namespace Luafmt
open Spec

/-! ### Constructs that begin with a literal -/

/-- Nonterminals whose trees begin with a literal before which nothing is written. -/
def NT.calm : NT → Bool
  | .block | .stats | .stat | .statStartsMayEndsPar | .statMayEndsPar | .statNoPar | .elseIfThenVec | .elseIfThen
  | .retStat | .label | .varListStartsPar | .varListNoStartPar | .functionCallNoStartsMayEndsPar
  | .functionCallStartsMayEndsPar | .varNoExp | .varExp | .name => true
  | _ => false

/-- The first symbol is a nonterminal that begins with a literal. -/
def calmHead : List Sym → Bool
  | .n b :: _ | .list b :: _ => b.calm
  | _ => false

/-- What is checked of the productions of these nonterminals. -/
def calmProd (p : NT × Tag × List Sym) : Bool :=
  !p.1.calm || (p.2.1.leafText.isSome || p.2.1.startsLit) || ((p.2.1.startsKid || p.2.1.calmList) && calmHead p.2.2)

theorem calmProd_all : ∀ p ∈ prods, calmProd p = true := by decide +kernel

theorem calmChain_all : ∀ p ∈ chains, p.1.calm = true → p.2.calm = true := by decide +kernel

theorem calm_inv : ∀ {n : NT} {c : C}, Derives n c → n.calm = true →
    (∃ a tag ss cs, a.calm = true ∧ c = .node tag cs ∧ (a, tag, ss) ∈ prods ∧ Matches ss cs) ∨
    (∃ a tag t, c = .node tag [.tok t] ∧ leafTag t = some (a, tag))
  | _, _, .chain hc h, hn => calm_inv h (calmChain_all _ hc hn)
  | _, _, .prod hp hm, hn => .inl ⟨_, _, _, _, hn, rfl, hp, hm⟩
  | _, _, .leaf hl, _ => .inr ⟨_, _, _, rfl, hl⟩

theorem setSeps_startsLit (ss : List Str) (t : Tag) : (t.setSeps ss).startsLit = t.startsLit := by cases t <;> rfl

theorem setSeps_startsKid (ss : List Str) (t : Tag) : (t.setSeps ss).startsKid = t.startsKid := by cases t <;> rfl

theorem setSeps_calmList (ss : List Str) (t : Tag) : (t.setSeps ss).calmList = t.calmList := by cases t <;> rfl

theorem calmList_form {t : Tag} (h : t.calmList = true) : t.seps.isSome = true ∨ t.isPlainList = true := by
  cases t <;> simp [Tag.calmList] at h <;> first | exact .inl rfl | exact .inr rfl

theorem sepLocs_head (pre : Loc) (p : Part) (ps : List Part) : ∃ ls, (sepLocs pre (p :: ps)).1 = pre :: ls := by
  match ps with
  | [] => exact ⟨_, rfl⟩
  | .tok _ :: _ => exact ⟨_, rfl⟩
  | .node _ :: _ => exact ⟨_, rfl⟩

theorem placeC_first (tag : Tag) (x : Cst TokL) (xs : List (Cst TokL)) :
    (placeC (.node tag (x :: xs))).span.l = (placeC x).span.l := by
  show (buildNode tag (placeAll (x :: xs))).span.l = _
  rw [buildNode_span]
  rfl

/-- A node whose first part is a calm node. -/
theorem buildNode_calm {tag : Tag} {n : Node} {ps : List Part} {o : Bool} (hn : CalmAt c n.span.l o n)
    (h : (tag.startsKid || tag.calmList) = true) : CalmAt c n.span.l o (buildNode tag (.node n :: ps)) := by
  rw [Bool.or_eq_true] at h
  rcases h with h | h
  · unfold buildNode
    simp only
    split
    · exact .kid (by rw [setSeps_startsKid]; exact h) hn
    · split
      · exact .kid h hn
      · exact .kid h hn
  · unfold buildNode
    simp only
    split
    · obtain ⟨ls, e⟩ := sepLocs_head ⟨n.span.l, n.span.l⟩ (.node n) ps
      have e' : (sepLocs ⟨((List.head? (Part.node n :: ps)).map (·.span.l)).getD 0,
        ((List.head? (Part.node n :: ps)).map (·.span.l)).getD 0⟩ (.node n :: ps)).1 =
          ⟨n.span.l, n.span.l⟩ :: ls := e
      rw [e']
      exact .list (by rw [setSeps_calmList]; exact h) hn
    · rename_i hs
      rcases calmList_form h with h' | h'
      · rw [hs] at h'; cases h'
      · rw [if_pos h']
        exact .list h hn

/-- A node that is a leaf or begins with a literal. -/
theorem buildNode_lit {tag : Tag} {ps : List Part} {r : Nat} (h : tag.leafText.isSome = true ∨ tag.startsLit = true) :
    CalmAt c r o (buildNode tag ps) := by
  have key : ∀ (t : Tag) (span : Loc) (locs : List Loc) (kids : List Node),
      t.leafText.isSome = true ∨ t.startsLit = true → CalmAt c r o (.mk t span locs kids) := by
    intro t span locs kids h
    rcases h with h | h
    · exact .leaf (by intro e; rw [e] at h; cases h)
    · exact .lit h
  unfold buildNode
  simp only
  split
  · exact key _ _ _ _ (by rw [setSeps_leaf, setSeps_startsLit]; exact h)
  · split <;> exact key _ _ _ _ h

theorem calm_head {ss : List Sym} {xs : List (Cst TokL)} (h : calmHead ss = true) (hm : Matches ss (stripAll xs)) :
    ∃ y ys b, xs = y :: ys ∧ b.calm = true ∧ Derives b (strip y) := by
  generalize e : stripAll xs = cs at hm
  unfold calmHead at h
  split at h
  · cases hm with
    | n hd hm =>
      obtain ⟨z, zs, rfl, rfl, _⟩ := stripAll_cons e
      exact ⟨_, _, _, rfl, h, hd⟩
  · cases hm with
    | listLast hd hm =>
      obtain ⟨z, zs, rfl, rfl, _⟩ := stripAll_cons e
      exact ⟨_, _, _, rfl, h, hd⟩
    | listCons hd hm =>
      obtain ⟨z, zs, rfl, rfl, _⟩ := stripAll_cons e
      exact ⟨_, _, _, rfl, h, hd⟩
  · cases h

theorem calm_place : ∀ (k : Nat) (x : Cst TokL), sizeOf x ≤ k → ∀ {n : NT}, Derives n (strip x) → n.calm = true →
    CalmAt c (placeC x).span.l o (placeNode x) := by
  intro k
  induction k with
  | zero =>
    intro x hx
    cases x <;> simp at hx
  | succ k ih =>
    intro x hx n hd hn
    rcases calm_inv hd hn with ⟨a, tag, ss, cs, ha, e, hp, hm⟩ | ⟨a, tag, t, e, hl⟩
    · obtain ⟨xs, rfl, rfl⟩ := strip_node e
      have hc := calmProd_all _ hp
      simp only [calmProd, ha, Bool.not_true, Bool.false_or] at hc
      rw [Bool.or_eq_true, Bool.or_eq_true] at hc
      show CalmAt c _ _ (buildNode tag (placeAll xs))
      rcases hc with (h | h) | h
      · exact buildNode_lit (.inl h)
      · exact buildNode_lit (.inr h)
      · obtain ⟨h1, h2⟩ := Bool.and_eq_true_iff.1 h
        obtain ⟨y, ys, b, rfl, hb, hy⟩ := calm_head h2 hm
        have hk : sizeOf y ≤ k := by
          simp at hx
          omega
        have := ih y hk hy hb
        rw [placeC_first]
        simp only [placeAll, placeC_node hy] at this ⊢
        exact buildNode_calm this h1
    · obtain ⟨xs, rfl, _⟩ := strip_node e
      show CalmAt c _ _ (buildNode tag (placeAll xs))
      exact buildNode_lit (.inl (by rw [(leafTag_text hl).1]; rfl))

theorem calm_of {x : Cst TokL} {n : NT} (hd : Derives n (strip x)) (hn : n.calm = true) :
    CalmAt c (placeC x).span.l o (placeNode x) := calm_place _ x (Nat.le_refl _) hd hn

/-! ### Expressions -/

/-- Nonterminals whose trees begin with a literal before which nothing is written, unless with a table. -/
def NT.mild : NT → Bool
  | .opExp | .op _ | .exp | .field | .prefixMayStartsMayEndsPar | .varMayExp | .functionDef | .stringLiteral
  | .tableConstructor | .name => true
  | _ => false

def mildHead : List Sym → Bool
  | .n b :: _ => b.mild
  | _ => false

/-- The node begins with its first child, and with a table if that does. -/
def Tag.passes : Tag → Bool
  | .binaryOp _ | .fieldSequential => true
  | _ => false

/-- A table, with or without fields. -/
def Tag.anyTable : Tag → Bool
  | .tableConstructor _ _ | .tableConstructorEmpty => true
  | _ => false

def mildProd (p : NT × Tag × List Sym) : Bool :=
  !p.1.mild || p.2.1.leafText.isSome || p.2.1.startsLit || p.2.1.anyTable || (p.2.1.passes && mildHead p.2.2) ||
    (p.2.1.startsKid && calmHead p.2.2)

theorem mildProd_all : ∀ p ∈ prods, mildProd p = true := by decide +kernel

theorem mildChain_all : ∀ p ∈ chains, p.1.mild = true → p.2.mild = true := by decide +kernel

theorem mild_inv : ∀ {n : NT} {c : C}, Derives n c → n.mild = true →
    (∃ a tag ss cs, a.mild = true ∧ c = .node tag cs ∧ (a, tag, ss) ∈ prods ∧ Matches ss cs) ∨
    (∃ a tag t, c = .node tag [.tok t] ∧ leafTag t = some (a, tag))
  | _, _, .chain hc h, hn => mild_inv h (mildChain_all _ hc hn)
  | _, _, .prod hp hm, hn => .inl ⟨_, _, _, _, hn, rfl, hp, hm⟩
  | _, _, .leaf hl, _ => .inr ⟨_, _, _, rfl, hl⟩

theorem buildNode_plain {tag : Tag} (h1 : tag.seps = none) (h2 : tag.isPlainList = false) (ps : List Part) :
    ∃ span locs, buildNode tag ps = .mk tag span locs (ps.filterMap Part.node?) := by
  unfold buildNode
  simp only [h1, h2, Bool.false_eq_true, if_false]
  exact ⟨_, _, rfl⟩

theorem mild_place {c : Config} : ∀ (k : Nat) (x : Cst TokL), sizeOf x ≤ k → ∀ {n : NT}, Derives n (strip x) → n.mild = true →
    ∀ (o : Bool), (tableStart (placeNode x) = some true ∨ o = false ∧ tableStart (placeNode x) ≠ none →
      c.bool .writeNewlineAtMultilineTable ≠ some true) → CalmAt c (placeC x).span.l o (placeNode x) := by
  intro k
  induction k with
  | zero =>
    intro x hx
    cases x <;> simp at hx
  | succ k ih =>
    intro x hx n hd hn o hb
    rcases mild_inv hd hn with ⟨a, tag, ss, cs, ha, e, hp, hm⟩ | ⟨a, tag, t, e, hl⟩
    · obtain ⟨xs, rfl, rfl⟩ := strip_node e
      have hc := mildProd_all _ hp
      simp only [mildProd, ha, Bool.not_true, Bool.false_or] at hc
      rw [Bool.or_eq_true, Bool.or_eq_true, Bool.or_eq_true, Bool.or_eq_true] at hc
      replace hb : tableStart (buildNode tag (placeAll xs)) = some true ∨ o = false ∧ tableStart (buildNode tag (placeAll xs)) ≠ none →
        c.bool .writeNewlineAtMultilineTable ≠ some true := hb
      show CalmAt c _ _ (buildNode tag (placeAll xs))
      rcases hc with (((h | h) | h) | h) | h
      · exact buildNode_lit (.inl h)
      · exact buildNode_lit (.inr h)
      · cases tag <;> simp [Tag.anyTable] at h
        case tableConstructorEmpty =>
          obtain ⟨span, locs, e⟩ := buildNode_plain (tag := .tableConstructorEmpty) rfl rfl (placeAll xs)
          rw [e]
          exact .empty
        case tableConstructor u v =>
          obtain ⟨span, locs, e⟩ := buildNode_plain (tag := .tableConstructor u v) rfl rfl (placeAll xs)
          rw [e] at hb ⊢
          refine .table ?_
          cases o with
          | true => exact .inr rfl
          | false => exact .inl (hb (.inr ⟨rfl, by simp [tableStart]⟩))
      · obtain ⟨h1, h2⟩ := Bool.and_eq_true_iff.1 h
        obtain ⟨b, ss', rfl, hbm⟩ : ∃ b ss', ss = .n b :: ss' ∧ b.mild = true := by
          unfold mildHead at h2
          split at h2
          · exact ⟨_, _, rfl, h2⟩
          · cases h2
        generalize e' : stripAll xs = cs at hm
        cases hm with
        | n hy hm =>
          obtain ⟨y, ys, rfl, rfl, _⟩ := stripAll_cons e'
          have hq : tag.seps = none ∧ tag.isPlainList = false := by
            cases tag <;> simp [Tag.passes] at h1 <;> exact ⟨rfl, rfl⟩
          obtain ⟨span, locs, e⟩ := buildNode_plain hq.1 hq.2 (placeAll (y :: ys))
          have ek : (placeAll (y :: ys)).filterMap Part.node? = placeNode y :: (placeAll ys).filterMap Part.node? := by
            simp only [placeAll, placeC_node hy]
            rfl
          rw [ek] at e
          rw [e] at hb ⊢
          rw [placeC_first]
          have hk : sizeOf y ≤ k := by
            simp at hx
            omega
          cases tag <;> simp [Tag.passes] at h1
          case fieldSequential => exact .kid rfl (ih y hk hy hbm o hb)
          case binaryOp =>
            refine .op (ih y hk hy hbm false fun h => hb (.inl ?_))
            show (tableStart (placeNode y)).map _ = some true
            cases e : tableStart (placeNode y) with
            | none => rw [e] at h; simp at h
            | some _ => rfl
      · obtain ⟨h1, h2⟩ := Bool.and_eq_true_iff.1 h
        obtain ⟨y, ys, b, rfl, hb, hy⟩ := calm_head h2 hm
        have := calm_of (c := c) (o := o) hy hb
        rw [placeC_first]
        simp only [placeAll, placeC_node hy] at this ⊢
        exact buildNode_calm this (by rw [h1]; rfl)
    · obtain ⟨xs, rfl, _⟩ := strip_node e
      show CalmAt c _ _ (buildNode tag (placeAll xs))
      exact buildNode_lit (.inl (by rw [(leafTag_text hl).1]; rfl))

/-- An expression that does not begin with a table on a line of its own begins with a literal. -/
theorem mild_of {c : Config} {x : Cst TokL} {n : NT} (hd : Derives n (strip x)) (hn : n.mild = true)
    (hb : BraceStays c (placeNode x)) : CalmAt c (placeC x).span.l true (placeNode x) :=
  mild_place _ x (Nat.le_refl _) hd hn true fun h => hb (h.elim id fun h => nomatch h.1)

/-! ### Gaps and children of a production -/

/-- The symbol is a nonterminal. -/
def Sym.isKid : Sym → Bool
  | .n _ => true
  | _ => false

/-- The children of a sequence of trees. -/
def kidsOf (xs : List (Cst TokL)) : List Node := (placeAll xs).filterMap Part.node?

theorem kidsOf_tok (t : TokL) (xs : List (Cst TokL)) : kidsOf (.tok t :: xs) = kidsOf xs := rfl

theorem kidsOf_node {n : NT} {x : Cst TokL} (h : Derives n (strip x)) (xs : List (Cst TokL)) :
    kidsOf (x :: xs) = placeNode x :: kidsOf xs := by
  simp only [kidsOf, placeAll, placeC_node h]
  rfl

theorem fits_get {ss : List Sym} {xs : List (Cst TokL)} (h : FitsD ss xs) : ∀ (j : Nat) (nt : NT), ss[j]? = some (.n nt) →
    ∃ x, xs[j]? = some x ∧ Derives nt (strip x) ∧ (kidsOf xs)[((ss.take j).filter Sym.isKid).length]? = some (placeNode x) := by
  induction h with
  | nil => intro j nt h; cases h
  | t e h ih =>
    intro j nt hj
    cases j with
    | zero => cases hj
    | succ j =>
      obtain ⟨x, h1, h2, h3⟩ := ih j nt (by simpa using hj)
      exact ⟨x, h1, h2, h3⟩
  | n hd h ih =>
    intro j nt hj
    rw [kidsOf_node hd]
    cases j with
    | zero =>
      cases hj
      exact ⟨_, rfl, hd, rfl⟩
    | succ j =>
      obtain ⟨x, h1, h2, h3⟩ := ih j nt (by simpa using hj)
      refine ⟨x, h1, h2, ?_⟩
      rw [List.take_succ_cons, List.filter_cons_of_pos rfl, List.length_cons, List.getElem?_cons_succ]
      exact h3

theorem fits_kid {ss : List Sym} {xs : List (Cst TokL)} (h : FitsD ss xs) : ∀ (i : Nat) (m : Node), (kidsOf xs)[i]? = some m →
    ∃ s nt x, ss[s]? = some (.n nt) ∧ ((ss.take s).filter Sym.isKid).length = i ∧ xs[s]? = some x ∧ Derives nt (strip x) ∧
      m = placeNode x := by
  induction h with
  | nil => intro i m h; cases h
  | t e h ih =>
    intro i m hi
    obtain ⟨s, nt, x, h1, h2, h3, h4, h5⟩ := ih i m hi
    exact ⟨s + 1, nt, x, h1, h2, h3, h4, h5⟩
  | n hd h ih =>
    intro i m hi
    rw [kidsOf_node hd] at hi
    cases i with
    | zero =>
      cases hi
      exact ⟨0, _, _, rfl, rfl, rfl, hd, rfl⟩
    | succ i =>
      obtain ⟨s, nt, x, h1, h2, h3, h4, h5⟩ := ih i m hi
      refine ⟨s + 1, nt, x, h1, ?_, h3, h4, h5⟩
      rw [List.take_succ_cons, List.filter_cons_of_pos rfl, List.length_cons, h2]

theorem fits_length {ss : List Sym} {xs : List (Cst TokL)} (h : FitsD ss xs) : xs.length = ss.length := by
  induction h with
  | nil => rfl
  | t e h ih => simp [ih]
  | n hd h ih => simp [ih]

theorem fits_kids {ss : List Sym} {xs : List (Cst TokL)} (h : FitsD ss xs) :
    (kidsOf xs).length = (ss.filter Sym.isKid).length := by
  induction h with
  | nil => rfl
  | t e h ih => simpa [kidsOf_tok, Sym.isKid] using ih
  | n hd h ih => rw [kidsOf_node hd, List.filter_cons_of_pos rfl, List.length_cons, List.length_cons, ih]

theorem placeAll_get {xs : List (Cst TokL)} {j : Nat} {x : Cst TokL} (h : xs[j]? = some x) :
    (placeAll xs)[j]? = some (placeC x) := by
  induction xs generalizing j with
  | nil => cases h
  | cons y ys ih =>
    cases j with
    | zero => cases h; rfl
    | succ j => exact ih h

theorem gapsOf_get {ps : List Part} {g : Nat} {q : Part} (h : ps[g + 1]? = some q) :
    ∃ loc, (gapsOf ps)[g]? = some loc ∧ loc.r = q.span.l := by
  induction ps generalizing g with
  | nil => cases h
  | cons p ps ih =>
    cases ps with
    | nil => cases h
    | cons q' ps =>
      cases g with
      | zero => cases h; exact ⟨_, rfl, rfl⟩
      | succ g => exact ih h

/-- The gap with this number is before the child with this number. -/
def gapKid (ss : List Sym) (g i : Nat) : Bool :=
  match ss[g + 1]? with
  | some (.n nt) => nt.calm && ((ss.take (g + 1)).filter Sym.isKid).length == i
  | _ => false

/-- What is checked of the productions that are fixed sequences. -/
def readyProd (p : NT × Tag × List Sym) : Bool :=
  (p.2.1.seps.isSome || p.2.1.isPlainList ||
    ((p.2.2.filter Sym.isKid).length ≤ arity p.2.1 && p.2.2.all Sym.isTN)) &&
  (kidGaps p.2.1).all (fun x => gapKid p.2.2 x.1 x.2) &&
  (!(p.2.1.template Config.default).isSome || p.2.2.all Sym.noFl)

/-- The gap before the symbol with this number. -/
def symGap : Nat → Option Nat
  | 0 => none
  | s + 1 => some s

/-- The positions of the children, and the length of the constructs that may be put on one line. -/
def placeProd (p : NT × Tag × List Sym) : Bool :=
  p.2.1.seps.isSome || p.2.1.isPlainList ||
    ((List.range p.2.2.length).all (fun s => !(p.2.2[s]?.any Sym.isKid) ||
        kidGap p.2.1 ((p.2.2.take s).filter Sym.isKid).length == symGap s) &&
      (match foldGap p.2.1 with | some g => p.2.2.length == g + 2 | none => true))

theorem placeProd_all : ∀ p ∈ prods, placeProd p = true := by decide +kernel

theorem noIv_all : ∀ p ∈ prods, (match p.2.1 with | .tableConstructor (some _) _ => false | _ => true) = true := by
  decide +kernel

theorem readyProd_all : ∀ p ∈ prods, readyProd p = true := by decide +kernel

/-- The items of a list of statements or of `elseif` clauses. -/
def Sym.calmItem : Sym → Bool
  | .n b | .list b => b.calm
  | _ => false

theorem calmItems_all : ∀ p ∈ prods, (p.2.1 = .statementList ∨ p.2.1 = .elseIfThenVec) → p.2.2.all Sym.calmItem = true := by
  decide +kernel

theorem matches_calm : ∀ {ss : List Sym} {cs : List C}, ss.all Sym.calmItem = true → Matches ss cs →
    ∀ y ∈ cs, ∃ n : NT, n.calm = true ∧ Derives n y
  | _, _, _, .nil, _, h => nomatch h
  | _, _, hs, .t hm, y, h => by simp [Sym.calmItem] at hs
  | _, _, hs, .n hd hm, y, h => by
    rw [List.all_cons, Bool.and_eq_true] at hs
    rcases List.mem_cons.mp h with rfl | h
    · exact ⟨_, hs.1, hd⟩
    · exact matches_calm hs.2 hm _ h
  | _, _, hs, .listLast hd hm, y, h => by
    rw [List.all_cons, Bool.and_eq_true] at hs
    rcases List.mem_cons.mp h with rfl | h
    · exact ⟨_, hs.1, hd⟩
    · exact matches_calm hs.2 hm _ h
  | _, _, hs, .listCons hd hm, y, h => by
    have hs' := hs
    rw [List.all_cons, Bool.and_eq_true] at hs
    rcases List.mem_cons.mp h with rfl | h
    · exact ⟨_, hs.1, hd⟩
    · exact matches_calm hs' hm _ h
  | _, _, hs, .sepLast hd hm, y, h => by simp [Sym.calmItem] at hs
  | _, _, hs, .sepCons hd hm, y, h => by simp [Sym.calmItem] at hs
  | _, _, hs, .sepEndLast hd hm, y, h => by simp [Sym.calmItem] at hs
  | _, _, hs, .sepEndTrail hd _ hm, y, h => by simp [Sym.calmItem] at hs
  | _, _, hs, .sepEndCons hd _ hm, y, h => by simp [Sym.calmItem] at hs

/-- The items of a list of expressions or of fields. -/
def Sym.mildItem : Sym → Bool
  | .sep b _ | .sepEnd b => b.mild
  | _ => false

theorem mildItems_all : ∀ p ∈ prods, ((∃ s, p.2.1 = .expList s) ∨ p.2.1.isFields = true) → p.2.2.all Sym.mildItem = true := by
  have h : ∀ p ∈ prods, (match p.2.1 with | .expList _ | .fields _ _ _ => true | _ => false) = true →
    p.2.2.all Sym.mildItem = true := by decide +kernel
  intro p hp ht
  refine h p hp ?_
  rcases ht with ⟨s, e⟩ | e
  · rw [e]
  · split
    · rfl
    · rfl
    · next h1 h2 =>
      revert e h2
      cases p.2.1 <;> simp [Tag.isFields]

theorem matches_mild : ∀ {ss : List Sym} {cs : List C}, ss.all Sym.mildItem = true → Matches ss cs →
    ∀ y ∈ cs, (∃ t, y = .tok t) ∨ ∃ n : NT, n.mild = true ∧ Derives n y
  | _, _, _, .nil, _, h => nomatch h
  | _, _, hs, .t hm, y, h => by simp [Sym.mildItem] at hs
  | _, _, hs, .n hd hm, y, h => by simp [Sym.mildItem] at hs
  | _, _, hs, .listLast hd hm, y, h => by simp [Sym.mildItem] at hs
  | _, _, hs, .listCons hd hm, y, h => by simp [Sym.mildItem] at hs
  | _, _, hs, .sepLast hd hm, y, h => by
    rw [List.all_cons, Bool.and_eq_true] at hs
    rcases List.mem_cons.mp h with rfl | h
    · exact .inr ⟨_, hs.1, hd⟩
    · exact matches_mild hs.2 hm _ h
  | _, _, hs, .sepCons hd hm, y, h => by
    have hs' := hs
    rw [List.all_cons, Bool.and_eq_true] at hs
    rcases List.mem_cons.mp h with rfl | h
    · exact .inr ⟨_, hs.1, hd⟩
    · rcases List.mem_cons.mp h with rfl | h
      · exact .inl ⟨_, rfl⟩
      · exact matches_mild hs' hm _ h
  | _, _, hs, .sepEndLast hd hm, y, h => by
    rw [List.all_cons, Bool.and_eq_true] at hs
    rcases List.mem_cons.mp h with rfl | h
    · exact .inr ⟨_, hs.1, hd⟩
    · exact matches_mild hs.2 hm _ h
  | _, _, hs, .sepEndTrail hd _ hm, y, h => by
    rw [List.all_cons, Bool.and_eq_true] at hs
    rcases List.mem_cons.mp h with rfl | h
    · exact .inr ⟨_, hs.1, hd⟩
    · rcases List.mem_cons.mp h with rfl | h
      · exact .inl ⟨_, rfl⟩
      · exact matches_mild hs.2 hm _ h
  | _, _, hs, .sepEndCons hd _ hm, y, h => by
    have hs' := hs
    rw [List.all_cons, Bool.and_eq_true] at hs
    rcases List.mem_cons.mp h with rfl | h
    · exact .inr ⟨_, hs.1, hd⟩
    · rcases List.mem_cons.mp h with rfl | h
      · exact .inl ⟨_, rfl⟩
      · exact matches_mild hs' hm _ h

theorem nodes_kids {xs : List (Cst TokL)} (h : ∀ y ∈ xs, ∃ n, Derives n (strip y)) : kidsOf xs = xs.map placeNode := by
  induction xs with
  | nil => rfl
  | cons x xs ih =>
    obtain ⟨n, hd⟩ := h x List.mem_cons_self
    rw [kidsOf_node hd, ih fun y hy => h y (List.mem_cons_of_mem _ hy), List.map_cons]

theorem sep_lengths {tag : Tag} {xs : List (Cst TokL)} (h : SepShape tag xs) (pre : Loc) :
    2 * (kidsOf xs).length ≤ (sepLocs pre (placeAll xs)).1.length ∧
      (kidsOf xs).length ≤ (sepLocs pre (placeAll xs)).2.length := by
  induction h generalizing pre with
  | one t ys => exact ⟨Nat.le_refl _, Nat.le_refl _⟩
  | trail t ys s _ _ => exact ⟨Nat.le_refl _, Nat.le_refl _⟩
  | cons t ys s xs _ h ih =>
    have e : kidsOf (.node t ys :: .tok s :: xs) = placeNode (.node t ys) :: kidsOf xs := rfl
    obtain ⟨a, pre', u, e'⟩ : ∃ a pre' u, sepLocs pre (placeAll (.node t ys :: .tok s :: xs)) =
      (pre :: a :: (sepLocs pre' (placeAll xs)).1, u :: (sepLocs pre' (placeAll xs)).2) := ⟨_, _, _, rfl⟩
    have := ih pre'
    simp only [e, e', List.length_cons]
    omega

/-- The places before the items of a list with separators. -/
theorem sep_places {tag : Tag} {xs : List (Cst TokL)} (h : SepShape tag xs) :
    ∀ {pre : Loc}, (∀ y ∈ xs.head?, pre.r = (placeC y).span.l) → ∀ (j : Nat) (m : Node), (kidsOf xs)[j]? = some m →
      ∃ loc, (sepLocs pre (placeAll xs)).1[2 * j]? = some loc ∧ loc.r = m.span.l := by
  induction h with
  | one t ys =>
    intro pre hp j m hj
    cases j with
    | zero => cases hj; exact ⟨pre, rfl, hp _ rfl⟩
    | succ j => cases hj
  | trail t ys s _ _ =>
    intro pre hp j m hj
    cases j with
    | zero => cases hj; exact ⟨pre, rfl, hp _ rfl⟩
    | succ j => cases hj
  | cons t ys s xs _ h ih =>
    intro pre hp j m hj
    cases j with
    | zero => cases hj; exact ⟨pre, rfl, hp _ rfl⟩
    | succ j =>
      have e : kidsOf (.node t ys :: .tok s :: xs) = placeNode (.node t ys) :: kidsOf xs := rfl
      rw [e, List.getElem?_cons_succ] at hj
      obtain ⟨a, pre', u, e', hp'⟩ : ∃ a pre' u, sepLocs pre (placeAll (.node t ys :: .tok s :: xs)) =
          (pre :: a :: (sepLocs pre' (placeAll xs)).1, u :: (sepLocs pre' (placeAll xs)).2) ∧
          ∀ y ∈ xs.head?, pre'.r = (placeC y).span.l := by
        refine ⟨_, _, _, rfl, ?_⟩
        intro y hy
        cases xs with
        | nil => cases hy
        | cons z zs => cases hy; rfl
      obtain ⟨loc, h1, h2⟩ := ih hp' j m hj
      refine ⟨loc, ?_, h2⟩
      rw [e', show 2 * (j + 1) = 2 * j + 1 + 1 by omega, List.getElem?_cons_succ, List.getElem?_cons_succ]
      exact h1

theorem buildNode_eq (tag : Tag) (xs : List (Cst TokL)) : ∃ span : Loc, (∀ y ∈ xs.head?, span.l = (placeC y).span.l) ∧
    ((∃ pre ss, tag.seps = some ss ∧ buildNode tag (placeAll xs) = .mk (tag.setSeps (sepLocs pre (placeAll xs)).2) span
      (sepLocs pre (placeAll xs)).1 (kidsOf xs) ∧ ∀ y ∈ xs.head?, pre.r = (placeC y).span.l) ∨
    (∃ pre, tag.seps = none ∧ tag.isPlainList = true ∧
      buildNode tag (placeAll xs) = .mk tag span (pre :: gapsOf (placeAll xs)) (kidsOf xs) ∧
      ∀ y ∈ xs.head?, pre.r = (placeC y).span.l) ∨
    (tag.seps = none ∧ tag.isPlainList = false ∧
      buildNode tag (placeAll xs) = .mk tag span (gapsOf (placeAll xs)) (kidsOf xs))) := by
  refine ⟨⟨(((placeAll xs).head?).map (·.span.l)).getD 0, (((placeAll xs).getLast?).map (·.span.r)).getD 0⟩, ?_⟩
  have hpre : ∀ y ∈ xs.head?, (((placeAll xs).head?).map (·.span.l)).getD 0 = (placeC y).span.l := by
    intro y hy
    cases xs with
    | nil => cases hy
    | cons z zs => cases hy; rfl
  refine ⟨hpre, ?_⟩
  unfold buildNode
  cases hs : tag.seps with
  | some ss => exact .inl ⟨_, ss, rfl, rfl, hpre⟩
  | none =>
    cases hp : tag.isPlainList with
    | true => exact .inr (.inl ⟨_, rfl, rfl, rfl, hpre⟩)
    | false => exact .inr (.inr ⟨rfl, rfl, rfl⟩)

theorem sepTag_quiet {t : Tag} (h : t.seps.isSome = true) : t.template Config.default = none ∧ kidGaps t = [] ∧
    t.isPlainList = false ∧ t ≠ .statementList ∧ t ≠ .elseIfThenVec := by
  cases t <;> simp [Tag.seps] at h <;> exact ⟨rfl, rfl, rfl, by simp, by simp⟩

theorem list_quiet {t : Tag} (h : t.seps.isSome = true ∨ t.isPlainList = true) :
    (∀ j, kidGap t j = some (itemPlace t j)) ∧ foldGap t = none ∧ ∀ a b, t ≠ .tableConstructor a b := by
  rcases h with h | h
  · cases t <;> simp [Tag.seps] at h <;> exact ⟨fun _ => rfl, rfl, by simp⟩
  · cases t <;> simp [Tag.isPlainList] at h <;> exact ⟨fun _ => rfl, rfl, by simp⟩

theorem leaf_fold {t : Tag} (h : t.leafText.isSome = true) : foldGap t = none ∧ ∀ a b, t ≠ .tableConstructor a b := by
  cases t <;> simp [Tag.leafText] at h <;> exact ⟨rfl, by simp⟩

theorem plainTag_quiet {t : Tag} (h : t.isPlainList = true) : t.template Config.default = none ∧ kidGaps t = [] := by
  cases t <;> simp [Tag.isPlainList] at h <;> exact ⟨rfl, rfl⟩

theorem leafTag_quiet {t : Tag} (h : t.leafText.isSome = true) : kidGaps t = [] ∧ t.seps = none ∧ t.isPlainList = false := by
  cases t <;> simp [Tag.leafText] at h <;> exact ⟨rfl, rfl, rfl⟩

theorem kidsOf_mem {xs : List (Cst TokL)} {n : Node} (h : n ∈ kidsOf xs) : ∃ x ∈ xs, placeC x = .node n := by
  obtain ⟨p, hp, e⟩ := List.mem_filterMap.1 h
  have : p = .node n := by
    cases p with
    | tok t => cases e
    | node m => cases e; rfl
  subst this
  clear e h
  induction xs with
  | nil => cases hp
  | cons x xs ih =>
    simp only [placeAll] at hp
    rcases List.mem_cons.1 hp with e | hp
    · exact ⟨x, List.mem_cons_self, e.symm⟩
    · obtain ⟨y, hy, e⟩ := ih hp
      exact ⟨y, List.mem_cons_of_mem _ hy, e⟩

theorem placeC_fields {x : Cst TokL} {n : Node} (h : placeC x = .node n) : n.tag.isFields = x.isFl := by
  cases x with
  | tok t => cases h
  | node tag xs =>
    cases h
    unfold buildNode
    simp only
    split
    · exact setSeps_isFields _ _
    · split <;> rfl

/-- The places before the items of a list. -/
theorem buildNode_places {n : NT} {tag : Tag} {xs : List (Cst TokL)} (h : Derives n (.node tag (stripAll xs))) :
    match buildNode tag (placeAll xs) with
    | .mk t _ locs kids => t.seps.isSome = true ∨ t.isPlainList = true → ∀ (j : Nat) m, kids[j]? = some m →
      ∃ loc, locs[itemPlace t j]? = some loc ∧ loc.r = m.span.l := by
  rcases derives_inv h with ⟨a, tag', ss, cs, e, hp, hm⟩ | ⟨a, tag', t, e, hl⟩
  · cases e
    obtain ⟨span, _, ⟨pre, sps, hs, e, hpre⟩ | ⟨pre, hs, hpl, e, hpre⟩ | ⟨hs, hpl, e⟩⟩ := buildNode_eq tag xs
    · rw [e]
      have hso : tag.seps.isSome = true := by rw [hs]; rfl
      have hsh : SepShape tag xs := by
        have hc := prods_checked _ hp
        simp only [prodCheck] at hc
        have hlf : tag.leafText = none := by cases tag <;> simp [Tag.seps] at hs <;> rfl
        rw [hlf, hs] at hc
        simp only [Bool.and_eq_true] at hc
        exact sepShape_of_form hc.1 hm
      intro _ j m hj
      have hi : ∀ ss, itemPlace (tag.setSeps ss) j = 2 * j := by
        intro ss
        cases tag <;> simp [Tag.seps] at hs <;> rfl
      rw [hi]
      exact sep_places hsh hpre j m hj
    · rw [e]
      intro _ j m hj
      have hnodes : ∀ y ∈ xs, ∃ n, Derives n (strip y) := by
        have hc := prods_checked _ hp
        simp only [prodCheck] at hc
        have hlf : tag.leafText = none := by cases tag <;> simp [Tag.isPlainList] at hpl <;> rfl
        rw [hlf, hs] at hc
        simp only [hpl, if_true, Bool.and_eq_true] at hc
        exact fun y hy => nodes_of_matches hc.1.2 hm _ (mem_stripAll hy)
      have hk := nodes_kids hnodes
      have hi : itemPlace tag j = j := by
        cases tag <;> simp [Tag.isPlainList] at hpl <;> rfl
      rw [hk, List.getElem?_map, Option.map_eq_some_iff] at hj
      obtain ⟨x, hx, rfl⟩ := hj
      obtain ⟨nt, hd⟩ := hnodes x (List.mem_of_getElem? hx)
      have hsp : (placeC x).span.l = (placeNode x).span.l := by rw [placeC_node hd]; rfl
      rw [hi]
      cases j with
      | zero =>
        refine ⟨pre, rfl, ?_⟩
        rw [← hsp]
        exact hpre x (by rw [List.head?_eq_getElem?]; exact hx)
      | succ j =>
        obtain ⟨loc', h1, h2⟩ := gapsOf_get (placeAll_get hx)
        exact ⟨loc', by simpa using h1, by rw [h2, hsp]⟩
    · rw [e]
      rintro (h | h)
      · rw [hs] at h; cases h
      · rw [hpl] at h; cases h
  · rw [Cst.node.injEq] at e
    obtain ⟨rfl, _⟩ := e
    obtain ⟨_, hsep, hpl, _⟩ := leafTag_text hl
    unfold buildNode
    simp only [hsep, hpl, Bool.false_eq_true, if_false]
    rintro (h | h) <;> cases h

theorem operand_all : ∀ p ∈ prods, (match p.2.1 with | .binaryOp _ => true | _ => false) = true →
    (match p.2.2 with | [.n _, .t _, .n b] => b.mild | _ => false) = true := by decide +kernel

/-- The root of a parsed node. -/
theorem buildNode_ready {n : NT} {tag : Tag} {xs : List (Cst TokL)} (h : Derives n (.node tag (stripAll xs))) :
    match buildNode tag (placeAll xs) with
    | .mk t span locs kids => ReadyAt t span locs kids := by
  have hplaces := buildNode_places h
  rcases derives_inv h with ⟨a, tag', ss, cs, e, hp, hm⟩ | ⟨a, tag', t, e, hl⟩
  · cases e
    have hr := readyProd_all _ hp
    simp only [readyProd, Bool.and_eq_true] at hr
    obtain ⟨⟨hr1, hr2⟩, hr3⟩ := hr
    obtain ⟨span, hspan, ⟨pre, sps, hs, e, _⟩ | ⟨pre, hs, hpl, e, _⟩ | ⟨hs, hpl, e⟩⟩ := buildNode_eq tag xs
    · rw [e] at hplaces ⊢
      have hso : tag.seps.isSome = true := by rw [hs]; rfl
      have hsh : SepShape tag xs := by
        have hc := prods_checked _ hp
        simp only [prodCheck] at hc
        have hlf : tag.leafText = none := by cases tag <;> simp [Tag.seps] at hs <;> rfl
        rw [hlf, hs] at hc
        simp only [Bool.and_eq_true] at hc
        exact sepShape_of_form hc.1 hm
      have hq := sepTag_quiet (t := tag.setSeps (sepLocs pre (placeAll xs)).2) (by rw [setSeps_seps hso]; rfl)
      have hl := sep_lengths hsh pre
      have hlist := list_quiet (t := tag.setSeps (sepLocs pre (placeAll xs)).2) (.inl (by rw [setSeps_seps hso]; rfl))
      refine ⟨?_, ?_, ?_, ?_, ?_, ?_, ?_, fun j m hj => ?_, fun g hg => ?_, fun b hb => absurd hb (hlist.2.2 _ _)⟩
      rotate_left 7
      · obtain ⟨loc, h1, h2⟩ := hplaces (.inl (by rw [setSeps_seps hso]; rfl)) j m hj
        rw [hlist.1]
        exact (congrArg some (by rw [locAt_of h1, h2]))
      · rw [hlist.2.1] at hg; cases hg
      · intro h1; rw [setSeps_seps hso] at h1; cases h1
      · intro h1; rw [hq.1] at h1; cases h1
      · intro c g i m h1; rw [hq.2.1] at h1; cases h1
      · intro ss' h1
        rw [setSeps_seps hso] at h1
        cases h1
        exact hl
      · intro h1; rw [hq.2.2.1] at h1; cases h1
      · intro c j m loc hj hb hloc
        obtain ⟨loc', h1, h2⟩ := hplaces (ItemBreaks_list hb) j m hj
        rw [hloc] at h1
        cases h1
        rw [h2]
        have hx : (∃ s, tag = .expList s) ∨ tag.isFields = true := by
          cases tag <;> simp [Tag.seps] at hs <;> first | exact .inl ⟨_, rfl⟩ | exact .inr rfl | exact hb.elim
        have hbt : BraceStays c m := by
          rcases hx with ⟨s, rfl⟩ | hf
          · rcases hb with hb | hb
            · exact hb.2.2
            · intro _
              rw [hb.2.2.2.1]
              simp
          · cases tag <;> simp [Tag.isFields] at hf
            exact hb.2.2.2.2
        obtain ⟨x, hx', ex⟩ := kidsOf_mem (List.mem_of_getElem? hj)
        rcases matches_mild (mildItems_all _ hp hx) hm _ (mem_stripAll hx') with ⟨t, et⟩ | ⟨nt, hn, hd⟩
        · obtain ⟨u, rfl, _⟩ := strip_tok et
          cases ex
        · have e1 := placeC_node hd
          rw [ex] at e1
          cases e1
          have := mild_of hd hn hbt
          rw [ex] at this
          exact this
      · intro c op m loc h1
        cases tag <;> simp [Tag.setSeps] at h1 <;> simp [Tag.seps] at hs
    · rw [e] at hplaces ⊢
      have hq := plainTag_quiet hpl
      have hnodes : ∀ y ∈ xs, ∃ n, Derives n (strip y) := by
        have hc := prods_checked _ hp
        simp only [prodCheck] at hc
        have hlf : tag.leafText = none := by cases tag <;> simp [Tag.isPlainList] at hpl <;> rfl
        rw [hlf, hs] at hc
        simp only [hpl, if_true, Bool.and_eq_true] at hc
        exact fun y hy => nodes_of_matches hc.1.2 hm _ (mem_stripAll hy)
      have hk := nodes_kids hnodes
      have hlist := list_quiet (.inr hpl)
      refine ⟨?_, ?_, ?_, ?_, ?_, ?_, ?_, fun j m hj => ?_, fun g hg => ?_, fun b hb => absurd hb (hlist.2.2 _ _)⟩
      rotate_left 7
      · obtain ⟨loc, h1, h2⟩ := hplaces (.inr hpl) j m hj
        rw [hlist.1]
        exact (congrArg some (by rw [locAt_of h1, h2]))
      · rw [hlist.2.1] at hg; cases hg
      · intro _ h1; rw [hpl] at h1; cases h1
      · intro h1; rw [hq.1] at h1; cases h1
      · intro c g i m h1; rw [hq.2] at h1; cases h1
      · intro ss' h1; rw [hs] at h1; cases h1
      · intro _
        rw [hk, List.length_map, List.length_cons, gapsOf_length, placeAll_length]
        omega
      · intro c j m loc hj hb hloc
        obtain ⟨loc', h1, h2⟩ := hplaces (ItemBreaks_list hb) j m hj
        rw [hloc] at h1
        cases h1
        rw [h2]
        rw [hk, List.getElem?_map, Option.map_eq_some_iff] at hj
        obtain ⟨x, hx, rfl⟩ := hj
        have key : tag = .statementList ∨ tag = .elseIfThenVec → CalmAt c (placeNode x).span.l true (placeNode x) := by
          intro ht
          obtain ⟨nt, hn, hd⟩ := matches_calm (calmItems_all _ hp ht) hm _ (mem_stripAll (List.mem_of_getElem? hx))
          have := calm_of (o := true) (c := c) hd hn
          rw [placeC_node hd] at this
          exact this
        cases tag <;> simp [Tag.isPlainList] at hpl
        case statementList => exact key (.inl rfl)
        case elseIfThenVec => exact key (.inr rfl)
        case varSuffixList =>
          have hb := hb.2.2
          generalize placeNode x = m at hb
          cases m
          rcases hb with hb | hb <;> (cases hb; exact .lit rfl)
      · rintro c op m loc rfl
        cases hpl
    · rw [e]
      have hpp := placeProd_all _ hp
      simp only [placeProd, hs, hpl, Option.isSome_none, Bool.false_or, Bool.and_eq_true] at hpp
      have hfit : FitsD ss xs := by
        simp only [hs, hpl, Option.isSome_none, Bool.false_or] at hr1
        rw [Bool.and_eq_true] at hr1
        exact fitsD_of_matches hr1.2 hm
      refine ⟨?_, ?_, ?_, ?_, ?_, ?_, ?_, fun j m hj => ?_, fun g hg => ?_, fun b hb => ?_⟩
      rotate_left 7
      · obtain ⟨s, nt, x, h1, h2, h3, h4, rfl⟩ := fits_kid hfit j m hj
        have h5 := List.all_eq_true.1 hpp.1 s (List.mem_range.2 (by rw [List.getElem?_eq_some_iff] at h1; exact h1.1))
        rw [h1, h2] at h5
        have h6 : kidGap tag j = symGap s := by simpa [Sym.isKid] using h5
        have hsp : (placeC x).span.l = (placeNode x).span.l := by rw [placeC_node h4]; rfl
        rw [h6]
        cases s with
        | zero =>
          exact congrArg some (by rw [← hsp]; exact hspan x (by rw [List.head?_eq_getElem?]; exact h3))
        | succ s =>
          obtain ⟨loc, h7, h8⟩ := gapsOf_get (placeAll_get h3)
          exact congrArg some (by rw [locAt_of h7, h8, hsp])
      · rw [hg] at hpp
        have h1 := eq_of_beq hpp.2
        rw [gapsOf_length, placeAll_length, fits_length hfit, h1]
        omega
      · have := noIv_all _ hp
        rw [hb] at this
        cases this
      · intro _ _
        simp only [hs, hpl, Option.isSome_none, Bool.false_or] at hr1
        simp only [Bool.and_eq_true, decide_eq_true_eq] at hr1
        rw [fits_kids (fitsD_of_matches hr1.2 hm)]
        exact hr1.1
      · intro h1 m hmem
        rw [h1] at hr3
        obtain ⟨x, hx, e⟩ := kidsOf_mem hmem
        rw [placeC_fields e, ← isFl_strip]
        exact matches_noFl (by simpa using hr3) hm _ (mem_stripAll hx)
      · intro c g i m hg hi
        have := List.all_eq_true.1 hr2 _ hg
        simp only [gapKid] at this
        split at this
        · rename_i nt hss
          rw [Bool.and_eq_true] at this
          have hi' := eq_of_beq this.2
          simp only [hs, hpl, Option.isSome_none, Bool.false_or] at hr1
          rw [Bool.and_eq_true] at hr1
          obtain ⟨x, h1, h2, h3⟩ := fits_get (fitsD_of_matches hr1.2 hm) _ _ hss
          rw [hi', hi] at h3
          cases h3
          obtain ⟨loc, h4, h5⟩ := gapsOf_get (placeAll_get h1)
          have e6 : locAt (gapsOf (placeAll xs)) g = loc := by simp [locAt, h4]
          rw [e6, h5]
          exact calm_of h2 this.1
        · cases this
      · intro ss' h1; rw [hs] at h1; cases h1
      · intro h1; rw [hpl] at h1; cases h1
      · intro c j m loc _ hb
        rcases ItemBreaks_list hb with h1 | h1
        · rw [hs] at h1; cases h1
        · rw [hpl] at h1; cases h1
      · rintro c op m loc rfl hj hbt hloc
        have ho := operand_all _ hp rfl
        simp only at ho
        split at ho
        · next b1 b =>
          generalize e' : stripAll xs = cs at hm
          cases hm with
          | n hy hm =>
            obtain ⟨y, ys, rfl, rfl, e2⟩ := stripAll_cons e'
            cases hm with
            | t hm =>
              obtain ⟨z, zs, rfl, ez, e3⟩ := stripAll_cons e2
              obtain ⟨u, rfl, _⟩ := strip_tok ez
              cases hm with
              | n hw hm =>
                obtain ⟨w, ws, rfl, rfl, e4⟩ := stripAll_cons e3
                rw [kidsOf_node hy, kidsOf_tok, kidsOf_node hw] at hj
                cases hj
                obtain ⟨loc', h1, h2⟩ := gapsOf_get (ps := placeAll (y :: .tok u :: w :: ws)) (g := 1) (q := placeC w) rfl
                rw [hloc] at h1
                cases h1
                rw [h2]
                exact mild_of hw ho hbt
        · cases ho
  · cases xs with
    | nil => simp [stripAll] at e
    | cons y ys =>
      simp only [stripAll, Cst.node.injEq, List.cons.injEq] at e
      obtain ⟨rfl, e1, e2⟩ := e
      cases stripAll_nil e2
      obtain ⟨u, rfl, e3⟩ := strip_tok e1
      obtain ⟨hs, hsep, hpl, hch⟩ := leafTag_text hl
      have hq := leafTag_quiet (t := tag) (by rw [hs]; rfl)
      unfold buildNode
      simp only [hsep, hpl, Bool.false_eq_true, if_false]
      have hlf := leaf_fold (t := tag) (by rw [hs]; rfl)
      refine ⟨fun _ _ => Nat.zero_le _, fun _ m hm => (by cases hm), ?_, ?_, ?_, ?_, ?_, fun j m hj => (by cases hj),
        fun g hg => (by rw [hlf.1] at hg; cases hg), fun b hb => absurd hb (hlf.2 _ _)⟩
      · intro c g i m h1; rw [hq.1] at h1; cases h1
      · intro ss' h1; rw [hsep] at h1; cases h1
      · intro h1; rw [hpl] at h1; cases h1
      · intro c j m loc hj; cases hj
      · intro c op m loc _ hj; cases hj

mutual
/-- Parsed nodes have the form that the printer theorem asks for. -/
theorem place_ready : ∀ (x : Cst TokL), ((∃ t, strip x = .tok t) ∨ ∃ n, Derives n (strip x)) →
    ∀ n, placeC x = .node n → Ready n
  | .tok t, _, n, e => by cases e
  | .node tag xs, h, n, e => by
    rcases h with ⟨t, h⟩ | ⟨nt, h⟩
    · simp [strip] at h
    · cases e
      have hall : ∀ y ∈ stripAll xs, (∃ t, y = .tok t) ∨ ∃ n, Derives n y := by
        rcases derives_inv h with ⟨a, tag', ss, cs, e, hp, hm⟩ | ⟨a, tag', t, e, hl⟩
        · simp only [strip, Cst.node.injEq] at e
          rw [e.2]
          exact matches_all hm
        · simp only [strip, Cst.node.injEq] at e
          rw [e.2]
          intro y hy
          exact .inl ⟨t, List.mem_singleton.1 hy⟩
      have hk := place_readyAll xs hall
      have hr := buildNode_ready (xs := xs) h
      obtain ⟨span, hspan, ⟨pre, sps, hs, e, _⟩ | ⟨pre, hs, hpl, e, _⟩ | ⟨hs, hpl, e⟩⟩ := buildNode_eq tag xs
      all_goals
        rw [e] at hr ⊢
        exact ⟨hr, hk⟩
theorem place_readyAll : ∀ (xs : List (Cst TokL)),
    (∀ y ∈ stripAll xs, (∃ t, y = .tok t) ∨ ∃ n, Derives n y) → ReadyAll (kidsOf xs)
  | [], _ => trivial
  | y :: ys, hy => by
    simp only [stripAll] at hy
    have hs := place_readyAll ys (fun z hz => hy z (List.mem_cons_of_mem _ hz))
    have h1 := place_ready y (hy _ List.mem_cons_self)
    cases y with
    | tok t => exact hs
    | node tag xs => exact ⟨h1 _ rfl, hs⟩
end

theorem ready_node {n : NT} {x : Cst TokL} (h : Derives n (strip x)) : Ready (placeNode x) :=
  place_ready x (.inr ⟨n, h⟩) _ (placeC_node h)

/-- A chunk. -/
theorem ready_chunk {tag : Tag} (ht : tag = .chunk ∨ tag = .sheBangChunk) {span : Loc} {locs : List Loc} {kids : List Node}
    (hl : kids.length ≤ arity tag) (hf : ∀ n ∈ kids, n.tag.isFields = false) (hk : ReadyAll kids)
    (hp : ∀ (j : Nat) n, kids[j]? = some n → (locAt locs j).r = n.span.l) :
    Ready (.mk tag span locs kids) := by
  have hq : kidGaps tag = [] ∧ tag.seps = none ∧ tag.isPlainList = false := by
    rcases ht with rfl | rfl <;> exact ⟨rfl, rfl, rfl⟩
  refine ⟨⟨fun _ _ => hl, fun _ => hf, ?_, ?_, ?_, ?_, ?_, fun j n hj => ?_, fun g hg => ?_, fun b hb => ?_⟩, hk⟩
  rotate_left 5
  · have hj' : j < arity tag := Nat.lt_of_lt_of_le (List.getElem?_eq_some_iff.1 hj).1 hl
    have : kidGap tag j = some j := by
      rcases ht with rfl | rfl
      · match j, hj' with
        | 0, _ => rfl
      · match j, hj' with
        | 0, _ => rfl
        | 1, _ => rfl
    rw [this]
    exact congrArg some (hp j n hj)
  · rcases ht with rfl | rfl <;> cases hg
  · rcases ht with rfl | rfl <;> cases hb
  · intro c g i m h1; rw [hq.1] at h1; cases h1
  · intro ss' h1; rw [hq.2.1] at h1; cases h1
  · intro h1; rw [hq.2.2] at h1; cases h1
  · intro c j m loc _ hb
    rcases ItemBreaks_list hb with h1 | h1
    · rw [hq.2.1] at h1; cases h1
    · rw [hq.2.2] at h1; cases h1
  · rintro c op m loc rfl
    rcases ht with h | h <;> cases h

/-- Parsed trees have the form that the printer theorem asks for. -/
theorem parseLua_ready {src : Str} {tree : Node} (h : parseLua src = some tree) : Ready tree := by
  unfold parseLua at h
  simp only [Option.bind_eq_bind, Option.bind_eq_some_iff, Option.some.injEq, Prod.exists] at h
  obtain ⟨toks, hlex, sb, b, hc, rfl⟩ := h
  obtain ⟨h1, h2, h3⟩ := parseChunk_sound hc
  have hsb : ∀ x, sb = some x → Derives .sheBangLine x := by
    intro x hx
    obtain ⟨s, rfl⟩ := h1 x hx
    exact .leaf rfl
  have key : ∀ {n : NT} {x : C} {ps : List TokL} {rest : List Token}, n ≠ .fieldList → Derives n x →
      ps.map (·.tok) = x.yield ++ rest → Ready (placeNode (attach x ps).1) ∧
        (placeNode (attach x ps).1).tag.isFields = false ∧ (attach x ps).2.map (·.tok) = rest := by
    intro n x ps rest hn hd hp
    obtain ⟨e1, e2, e3⟩ := attach_ok x ps rest hp
    obtain ⟨_, _, _, e4, e5⟩ := attach_good Config.default hn hd hp
    exact ⟨ready_node (e1 ▸ hd), by rw [placeC_fields e4, e5], e3⟩
  cases sb with
  | none =>
    cases b with
    | none =>
      refine ready_chunk (.inl rfl) (show 1 ≤ 1 by decide) ?_ ⟨?_, trivial⟩ (fun j n hj => by
        match j, hj with
        | 0, hj => cases hj; rfl
        | _ + 1, hj => simp at hj)
      · intro n hn
        rw [List.mem_singleton.1 hn]
        rfl
      · refine ⟨⟨fun _ h => (by cases h), fun h => (by cases h), fun _ _ _ _ h => (by cases h), fun _ h => (by cases h),
          fun _ => Nat.le_refl _, fun _ j n loc h => (by simp at h), fun _ _ n loc _ h => (by simp at h),
          fun j n h => (by simp at h), fun g h => (by cases h), fun b h => (by cases h)⟩, trivial⟩
    | some x =>
      obtain ⟨k1, k2, _⟩ := key (by decide) (h2 _ rfl) (ps := toks) (rest := [.eof]) (by simpa [Cst.yields] using h3)
      exact ready_chunk (.inl rfl) (show 1 ≤ 1 by decide) (fun n hn => by rw [List.mem_singleton.1 hn]; exact k2) ⟨k1, trivial⟩
        (fun j n hj => by
        match j, hj with
        | 0, hj => cases hj; rfl
        | _ + 1, hj => simp at hj)
  | some s =>
    cases b with
    | none =>
      obtain ⟨k1, k2, _⟩ := key (by decide) (hsb _ rfl) (ps := toks) (rest := [.eof]) (by simpa [Cst.yields] using h3)
      exact ready_chunk (.inl rfl) (show 1 ≤ 1 by decide) (fun n hn => by rw [List.mem_singleton.1 hn]; exact k2) ⟨k1, trivial⟩
        (fun j n hj => by
        match j, hj with
        | 0, hj => cases hj; rfl
        | _ + 1, hj => simp at hj)
    | some x =>
      obtain ⟨k1, k2, k3⟩ := key (by decide) (hsb _ rfl) (ps := toks) (rest := x.yield ++ [.eof])
        (by simpa [Cst.yields] using h3)
      obtain ⟨l1, l2, _⟩ := key (by decide) (h2 _ rfl) k3
      refine ready_chunk (.inr rfl) (show 2 ≤ 2 by decide) (fun n hn => ?_) ⟨k1, l1, trivial⟩ (fun j n hj => by
        match j, hj with
        | 0, hj => cases hj; rfl
        | 1, hj => cases hj; rfl
        | _ + 2, hj => simp at hj)
      rcases List.mem_cons.1 hn with rfl | hn
      · exact k2
      · rw [List.mem_singleton.1 hn]; exact l2

theorem parseLua_isRoot {src : Str} {tree : Node} (h : parseLua src = some tree) : tree.tag.isRoot = true := by
  unfold parseLua at h
  simp only [Option.bind_eq_bind, Option.bind_eq_some_iff, Option.some.injEq, Prod.exists] at h
  obtain ⟨toks, _, sb, b, _, rfl⟩ := h
  cases sb <;> cases b <;> rfl

end Luafmt
