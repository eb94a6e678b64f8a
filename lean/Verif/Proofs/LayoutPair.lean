import Verif.Proofs.Relayout
import Verif.Proofs.SameTree

/-
Where no separator is added or dropped, the tree of the output has its gaps at the same token numbers as that of the source.
-/
namespace Luafmt
open Spec

variable {c : Config}

/-! ### The parts of the output -/

/-- The blocks of the source and of the output. -/
def BlockRw (c : Config) : Option C → Option C → Prop
  | none, none => True
  | some x, some x' => Rw c x x'
  | _, _ => False

/-- The derivation trees of the source and of the output. -/
theorem outs_chunk {A : TokL → TokL → Prop} {src out : Str} {tree : Node} {toks os : List TokL} {e e' : TokL}
    (hp : parseLua src = some tree) (hl : lexLua src = some (toks ++ [e])) (he : e.tok = .eof)
    (hO : Outs c A (toks ++ [e]) (tree.items c) [e] os) (hl' : lexLua out = some (os ++ [e'])) (he' : e'.tok = .eof) :
    ∃ sb b b', parseChunk ((toks ++ [e]).map (·.tok)) = some (sbTree sb, b) ∧
      parseChunk ((os ++ [e']).map (·.tok)) = some (sbTree sb, b') ∧ BlockRw c b b' := by
  unfold parseLua at hp
  rw [hl] at hp
  simp only [Option.bind_eq_bind, Option.bind_some, Option.bind_eq_some_iff, Option.some.injEq, Prod.exists] at hp
  obtain ⟨s, b, hc, rfl⟩ := hp
  obtain ⟨sb, rfl, h⟩ := parseChunk_toks hc
  have h3 := h.toks
  have hs : ∀ w, Derives .sheBangLine (.node (.sheBang w) [.tok (.sheBang w)]) := fun w => .leaf rfl
  have hrs : ∀ w x', Rw c (.node (.sheBang w) [.tok (.sheBang w)]) x' → x' = .node (.sheBang w) [.tok (.sheBang w)] := by
    intro w x' h
    rcases h.node_inv with ⟨_, cs', rfl, h6⟩ | ⟨_, h6, _⟩ | ⟨h6, _⟩
    · obtain ⟨y, ys, rfl, h4, h5⟩ := h6.cons_inv
      rw [h4.tok_inv, h5.nil_inv]
    · cases h6
    · cases h6
  have fin : ∀ {b' : Option C}, (∀ x, b' = some x → Derives .block x) →
      (os ++ [e']).map (·.tok) = (sb.map Token.sheBang).toList ++ ((b'.map Cst.yield).getD [] ++ [.eof]) →
      parseChunk ((os ++ [e']).map (·.tok)) = some (sbTree sb, b') := by
    intro b' h1 h2
    rw [parseChunk_complete (sb := sb) (b := b') ⟨h1, by rw [h2, ← List.append_assoc]; rfl⟩]
    rfl
  cases sb with
  | none =>
    cases b with
    | none =>
      have e : (placeChunk src.length (toks ++ [e]) (sbTree none) none).items c = [.gap ⟨0, src.length⟩ [], .gap ⟨src.length, src.length⟩ []] := rfl
      rw [e] at hO
      obtain ⟨_, rfl⟩ := hO.gap_inv.gap_inv.nil_inv
      exact ⟨none, none, none, hc, fin (by simp) (by simp [he']), trivial⟩
    | some x =>
      have hx := h.block x rfl
      simp only [Option.map_none, Option.map_some, Option.toList_none, Option.getD_some, List.nil_append] at h3
      simp only [placeChunk, sbTree, Option.map_none] at hO
      have h4 := fun ts' os => attach_follows (A := A) (c := c) hx h3 (ts' := ts') (os := os)
      obtain ⟨k1, _, _⟩ := attach_ok x (toks ++ [e]) [.eof] h3
      generalize attach x (toks ++ [e]) = r at hO h4 k1
      rw [one_items] at hO
      obtain ⟨us, o1, o2, hO1, hO2, rfl⟩ := hO.gap_inv.split
      obtain ⟨rfl, x', rfl, hw, hd⟩ := h4 _ _ hO1
      obtain ⟨_, rfl⟩ := hO2.gap_inv.nil_inv
      refine ⟨none, some x, some (strip x'), hc, fin (fun z hz => ?_) (by simp [he', strip_yield]), ?_⟩
      · cases hz
        exact hd
      · have := hw.rw
        rw [k1] at this
        exact this
  | some w =>
    cases b with
    | none =>
      simp only [Option.map_none, Option.map_some, Option.toList_some, Option.getD_none, List.nil_append] at h3
      simp only [placeChunk, sbTree, Option.map_some] at hO
      have h4 := fun ts' os => attach_follows (A := A) (c := c) (hs w) (rest := [.eof]) (by rw [h3]; rfl) (ts' := ts') (os := os)
      obtain ⟨k1, _, _⟩ := attach_ok (.node (.sheBang w) [.tok (.sheBang w)]) (toks ++ [e]) [.eof] (by rw [h3]; rfl)
      generalize attach (.node (.sheBang w) [.tok (.sheBang w)]) (toks ++ [e]) = r at hO h4 k1
      rw [one_items] at hO
      obtain ⟨us, o1, o2, hO1, hO2, rfl⟩ := hO.gap_inv.split
      obtain ⟨rfl, x', rfl, hw, hd⟩ := h4 _ _ hO1
      obtain ⟨_, rfl⟩ := hO2.gap_inv.nil_inv
      have k2 := hw.rw
      rw [k1] at k2
      have k3 := hrs w _ k2
      refine ⟨some w, none, none, hc, fin (by simp) ?_, trivial⟩
      rw [List.append_nil, List.map_append, ← strip_yield, k3]
      simp [he', Cst.yield, Cst.yields]
    | some x =>
      have hx := h.block x rfl
      simp only [Option.map_some, Option.toList_some, Option.getD_some] at h3
      simp only [placeChunk, sbTree, Option.map_some] at hO
      have h4 := fun ts' os => attach_follows (A := A) (c := c) (hs w) (rest := x.yield ++ [.eof]) (by rw [h3]; rfl) (ts' := ts') (os := os)
      obtain ⟨k1, _, k3⟩ := attach_ok (.node (.sheBang w) [.tok (.sheBang w)]) (toks ++ [e]) (x.yield ++ [.eof]) (by rw [h3]; rfl)
      generalize attach (.node (.sheBang w) [.tok (.sheBang w)]) (toks ++ [e]) = r at hO h4 k1 k3
      have h5 := fun ts' os => attach_follows (A := A) (c := c) hx k3 (ts' := ts') (os := os)
      obtain ⟨k4, _, _⟩ := attach_ok x r.2 [.eof] k3
      generalize attach x r.2 = r' at hO h5 k4
      rw [two_items] at hO
      obtain ⟨us, o1, o2, hO1, hO2, rfl⟩ := hO.gap_inv.split
      obtain ⟨rfl, w', rfl, hw, _⟩ := h4 _ _ hO1
      obtain ⟨us, o3, o4, hO3, hO4, rfl⟩ := hO2.gap_inv.split
      obtain ⟨rfl, x', rfl, hw', hd'⟩ := h5 _ _ hO3
      obtain ⟨_, rfl⟩ := hO4.gap_inv.nil_inv
      have k2 := hw.rw
      rw [k1] at k2
      have k3 := hrs w _ k2
      refine ⟨some w, some x, some (strip x'), hc, fin (fun z hz => ?_) ?_, ?_⟩
      · cases hz
        exact hd'
      · rw [List.append_nil, List.map_append, List.map_append, ← strip_yield, ← strip_yield, k3]
        simp [he', Cst.yield, Cst.yields]
      · have := hw'.rw
        rw [k4] at this
        exact this

/-! ### The same number of tokens -/

/-- No separator is added or dropped. -/
structure Even (c : Config) : Prop where
  trail : c.bool .writeTrailingFieldSeparator = none
  table : c.bool .forceSingleLineTable ≠ some true
  range : c.lineRange = none
  sep : c.str .fieldSeparator ≠ some []

theorem Even.added (he : Even c) {s : Str} (h : LastSeparator c [] s) : s = [] := by
  rcases h with h | ⟨_, h⟩ | ⟨h, _⟩
  · rw [he.trail] at h
    simpa using h
  · exact absurd h he.table
  · exact absurd he.range h

theorem Even.dropped (he : Even c) {s : Str} (h : LastSeparator c s []) : s = [] := by
  rcases h with h | ⟨_, h⟩ | ⟨h, _⟩
  · rw [he.trail] at h
    have hs := he.sep
    apply Classical.byContradiction
    intro hn
    simp only [hn, if_false] at h
    cases hf : c.str .fieldSeparator with
    | none => rw [hf] at h; exact hn h.symm
    | some f => rw [hf] at h hs; exact hs (by rw [← show [] = f from h])
  · exact absurd h he.table
  · exact absurd he.range h

mutual
theorem rw_length (he : Even c) : ∀ {x y : C}, Rw c x y → y.yield.length = x.yield.length
  | _, _, .tok => rfl
  | _, _, .node _ h => by simpa [Cst.yield] using rwAll_length he h
  | _, _, .str _ => rfl
  | _, _, .fields _ h => by simpa [Cst.yield] using rwFields_length he h
theorem rwAll_length (he : Even c) : ∀ {xs ys : List C}, RwAll c xs ys → (Cst.yields ys).length = (Cst.yields xs).length
  | _, _, .nil => rfl
  | _, _, .cons h hs => by simp [Cst.yields, rw_length he h, rwAll_length he hs]
theorem rwFields_length (he : Even c) : ∀ {xs ys : List C}, RwFields c xs ys → (Cst.yields ys).length = (Cst.yields xs).length
  | _, _, .none h _ => by simp [Cst.yields, rw_length he h]
  | _, _, .add _ hs hl => absurd (he.added hl) (fieldSep_ne hs)
  | _, _, .drop _ hs hl => absurd (he.dropped hl) (fieldSep_ne hs)
  | _, _, .keep h _ _ _ => by simp [Cst.yields, Cst.yield, rw_length he h]
  | _, _, .cons h _ _ _ hs => by simp [Cst.yields, Cst.yield, rw_length he h, rwFields_length he hs]
end

/-! ### Positions -/

/-- Tokens at the same place. -/
def SamePos (t t' : TokL) : Prop := t.l = t'.l ∧ t.r = t'.r

/-- Parts at the same place with the same gaps. -/
def PartAlt (c : Config) : Part → Part → Prop
  | .tok t, .tok t' => SamePos t t'
  | .node n, .node n' => n.span = n'.span ∧ Twin c Eq n n'
  | _, _ => False

theorem PartAlt.span {p q : Part} (h : PartAlt c p q) : q.span = p.span := by
  match p, q, h with
  | .tok t, .tok t', h => simp [Part.span, h.1, h.2]
  | .node n, .node n', h => exact h.1.symm

theorem pairs_eq {ls : List Loc} : Pairs Eq ls ls := by
  induction ls with
  | nil => exact .nil
  | cons l ls ih => exact .cons rfl ih

theorem alt_gaps {ps qs : List Part} (h : Pairs (PartAlt c) ps qs) : gapsOf qs = gapsOf ps := by
  induction h with
  | nil => rfl
  | cons h hs ih =>
    cases hs with
    | nil => rfl
    | cons h' hs => simp only [gapsOf, h.span, h'.span] at ih ⊢; rw [ih]

theorem alt_sep : ∀ (n : Nat) {ps qs : List Part} (pre : Loc), ps.length ≤ n → Pairs (PartAlt c) ps qs →
    (sepLocs pre qs).1 = (sepLocs pre ps).1
  | _, [], [], _, _, .nil => rfl
  | 0, _ :: _, _ :: _, _, hn, .cons _ _ => by simp at hn
  | n + 1, p :: _, q :: _, pre, hn, .cons h hs => by
    cases hs with
    | nil => simp [sepLocs, h.span]
    | @cons p2 q2 ps qs h' hs' =>
      match p2, q2, h' with
      | .tok t, .tok t', h' =>
        have e1 : t'.l = t.l := h'.1.symm
        have e2 : t'.r = t.r := h'.2.symm
        cases hs' with
        | nil => simp [sepLocs, h.span, e1]
        | cons h3 hs3 =>
          have := fun pre => alt_sep n pre (by simp at hn ⊢; omega) (.cons h3 hs3)
          simp only [sepLocs, h.span, e1, e2, h3.span, this]
      | .node m, .node m', h' =>
        have := fun pre => alt_sep n pre (by simp at hn ⊢; omega) (.cons (a := Part.node m) (b := Part.node m') h' hs')
        simp only [sepLocs, h.span, this, h'.1]

theorem alt_nodes {ps qs : List Part} (h : Pairs (PartAlt c) ps qs) :
    Twins c Eq (ps.filterMap Part.node?) (qs.filterMap Part.node?) := by
  induction h with
  | nil => exact .nil
  | @cons p q ps qs h _ ih =>
    match p, q, h with
    | .tok t, .tok t', h => exact ih
    | .node n, .node n', h => exact .cons h.2 ih

theorem alt_last {ps qs : List Part} (h : Pairs (PartAlt c) ps qs) :
    qs.getLast?.map (·.span.r) = ps.getLast?.map (·.span.r) := by
  induction h with
  | nil => rfl
  | cons h hs ih =>
    cases hs with
    | nil => simp [h.span]
    | cons h' hs => simpa [List.getLast?_cons_cons] using ih

theorem alt_build {tag tag' : Tag} {ps qs : List Part} (h : Pairs (PartAlt c) ps qs)
    (ht : ∀ pre pre', TwinTag c (match tag.seps with | some _ => tag.setSeps (sepLocs pre ps).2 | none => tag)
      (match tag'.seps with | some _ => tag'.setSeps (sepLocs pre' qs).2 | none => tag'))
    (hs : tag'.seps.isSome = tag.seps.isSome) (hp : tag'.isPlainList = tag.isPlainList) :
    PartAlt c (.node (buildNode tag ps)) (.node (buildNode tag' qs)) := by
  have e1 : (qs.head?.map (·.span.l)).getD 0 = (ps.head?.map (·.span.l)).getD 0 := by
    cases h with
    | nil => rfl
    | cons h _ => simp [h.span]
  have e2 : (qs.getLast?.map (·.span.r)).getD 0 = (ps.getLast?.map (·.span.r)).getD 0 := by rw [alt_last h]
  show (buildNode tag ps).span = (buildNode tag' qs).span ∧ Twin c Eq _ _
  unfold buildNode
  simp only [e1, e2, hp]
  cases h1 : tag.seps with
  | some ss =>
    obtain ⟨ss', h2⟩ := Option.isSome_iff_exists.mp (hs.trans (by rw [h1]; rfl))
    simp only [h1, h2] at ht
    simp only [h2]
    refine ⟨rfl, .mk (ht _ _) ?_ (alt_nodes h)⟩
    rw [alt_sep _ _ (Nat.le_refl _) h]
    exact pairs_eq
  | none =>
    have h2 : tag'.seps = none := by
      cases h3 : tag'.seps with
      | none => rfl
      | some s => rw [h3, h1] at hs; cases hs
    simp only [h1, h2] at ht
    simp only [h2, alt_gaps h]
    split
    · exact ⟨rfl, .mk (ht ⟨0, 0⟩ ⟨0, 0⟩) pairs_eq (alt_nodes h)⟩
    · exact ⟨rfl, .mk (ht ⟨0, 0⟩ ⟨0, 0⟩) pairs_eq (alt_nodes h)⟩

theorem Pairs.split {α β : Type} {R : α → β → Prop} : ∀ {as : List α} {as' : List β} {bs : List α} {bs' : List β},
    as'.length = as.length → Pairs R (as ++ bs) (as' ++ bs') → Pairs R as as' ∧ Pairs R bs bs'
  | [], [], _, _, _, h => ⟨.nil, h⟩
  | [], _ :: _, _, _, h, _ => by simp at h
  | _ :: _, [], _, _, h, _ => by simp at h
  | _ :: as, _ :: as', _, _, hl, .cons h hs => by
    obtain ⟨h1, h2⟩ := Pairs.split (by simpa using hl) hs
    exact ⟨.cons h h1, h2⟩

theorem strip_length (x : Cst TokL) : (strip x).yield.length = x.yield.length := by
  rw [strip_yield, List.length_map]

theorem tagTwin_build {tag : Tag} {xs ys : List (Cst TokL)} (ht : sepTexts (stripAll ys) = sepTexts (stripAll xs))
    (pre pre' : Loc) : TwinTag c (match tag.seps with | some _ => tag.setSeps (sepLocs pre (placeAll xs)).2 | none => tag)
      (match tag.seps with | some _ => tag.setSeps (sepLocs pre' (placeAll ys)).2 | none => tag) := by
  simp only [sepLocs_texts, ht]
  exact TwinTag.refl _

mutual
theorem place_alt (he : Even c) : ∀ (x y : Cst TokL), Rw c (strip x) (strip y) → Pairs SamePos x.yield y.yield →
    PartAlt c (placeC x) (placeC y)
  | .tok t, y, h, hp => by
    have e : strip y = .tok t.tok := h.tok_inv
    cases y with
    | tok v =>
      cases hp with
      | cons h _ => exact h
    | node t ys => simp [strip] at e
  | .node tag xs, y, h, hp => by
    simp only [strip] at h
    rcases h.node_inv with ⟨hf, cs', e, h1⟩ | ⟨s, e1, h1, e2, e3⟩ | ⟨hf, cs', e, h1⟩
    · cases y with
      | tok u => cases e
      | node tag' ys =>
        simp only [strip, Cst.node.injEq] at e
        obtain ⟨rfl, rfl⟩ := e
        exact alt_build (places_alt he xs ys h1 hp) (tagTwin_build (rwAll_texts _ (Nat.le_refl _) h1)) rfl rfl
    · cases y with
      | tok u => cases e3
      | node tag' ys =>
        simp only [strip, Cst.node.injEq] at e3
        obtain ⟨rfl, e4⟩ := e3
        subst e1
        obtain ⟨u, us, rfl, e5, e6⟩ := stripAll_eq_cons e2
        obtain ⟨v, vs, rfl, e7, e8⟩ := stripAll_eq_cons e4
        cases stripAll_nil e6
        cases stripAll_nil e8
        cases u with
        | node _ _ => cases e5
        | tok u =>
          cases v with
          | node _ _ => cases e7
          | tok v =>
            cases hp with
            | cons hp _ => exact alt_build (.cons hp .nil) (fun _ _ => .inr ⟨h1, rfl⟩) rfl rfl
    · cases y with
      | tok u => cases e
      | node tag' ys =>
        simp only [strip, Cst.node.injEq] at e
        obtain ⟨rfl, rfl⟩ := e
        refine alt_build (fields_alt he xs ys h1 hp) (fun pre pre' => ?_) rfl rfl
        cases tag' <;> simp [Tag.isFields] at hf
        simp only [Tag.seps, Tag.setSeps, sepLocs_texts]
        exact ⟨_, rfl, seps_sim ⟨he.table, he.range⟩ (rwFields_texts _ (Nat.le_refl _) h1) (rwFields_ne _ (Nat.le_refl _) h1)⟩
theorem places_alt (he : Even c) : ∀ (xs ys : List (Cst TokL)), RwAll c (stripAll xs) (stripAll ys) →
    Pairs SamePos (Cst.yields xs) (Cst.yields ys) → Pairs (PartAlt c) (placeAll xs) (placeAll ys)
  | [], ys, h, _ => by
    cases stripAll_nil h.nil_inv
    exact .nil
  | x :: xs, ys, h, hp => by
    simp only [stripAll] at h
    obtain ⟨z, zs, e, hx, hr⟩ := h.cons_inv
    obtain ⟨y, ys, rfl, rfl, rfl⟩ := stripAll_eq_cons e
    obtain ⟨h1, h2⟩ := Pairs.split (by rw [← strip_length, ← strip_length]; exact rw_length he hx) hp
    exact .cons (place_alt he x y hx h1) (places_alt he xs ys hr h2)
theorem fields_alt (he : Even c) : ∀ (xs ys : List (Cst TokL)), RwFields c (stripAll xs) (stripAll ys) →
    Pairs SamePos (Cst.yields xs) (Cst.yields ys) → Pairs (PartAlt c) (placeAll xs) (placeAll ys)
  | [], ys, h, _ => h.not_nil.elim
  | x :: xs, ys, h, hp => by
    simp only [stripAll] at h
    obtain ⟨x', r, e, hx, hr⟩ := h.inv2
    obtain ⟨y, ys, rfl, rfl, rfl⟩ := stripAll_eq_cons e
    obtain ⟨p1, p2⟩ := Pairs.split (by rw [← strip_length, ← strip_length]; exact rw_length he hx) hp
    refine .cons (place_alt he x y hx p1) ?_
    rcases hr with ⟨e1, ⟨e2, _⟩ | ⟨s, e2, hs, hl⟩⟩ | ⟨t, e1, ht, ⟨e2, hl⟩ | ⟨s, e2, _⟩⟩ | ⟨t, zs, s, r', e1, e2, _, _, _, hr⟩
    · rw [stripAll_nil e1, stripAll_nil e2]; exact .nil
    · exact absurd (he.added hl) (fieldSep_ne hs)
    · exact absurd (he.dropped hl) (fieldSep_ne ht)
    · obtain ⟨u, us, rfl, e3, e4⟩ := stripAll_eq_cons e1
      obtain ⟨v, vs, rfl, e5, e6⟩ := stripAll_eq_cons e2
      cases stripAll_nil e4
      cases stripAll_nil e6
      cases u with
      | node => cases e3
      | tok u =>
        cases v with
        | node => cases e5
        | tok v =>
          cases p2 with
          | cons h _ => exact .cons h .nil
    · match xs, e1 with
      | x2 :: xs, e1 =>
        simp only [stripAll, List.cons.injEq] at e1
        obtain ⟨y2, ys, rfl, e3, e4⟩ := stripAll_eq_cons e2
        cases x2 with
        | node => cases e1.1
        | tok u =>
          cases y2 with
          | node => cases e3
          | tok v =>
            cases p2 with
            | cons h hp => exact .cons h (fields_alt he xs ys (by rw [e1.2, e4]; exact hr) hp)
end

/-! ### Trees of token numbers -/

theorem pairs_pos_length {us vs : List TokL} (h : Pairs SamePos us vs) : vs.length = us.length := by
  induction h with
  | nil => rfl
  | cons _ _ ih => simp [ih]

theorem idxFrom_alt : ∀ {ts ts' : List Token} (k : Nat), ts'.length = ts.length → Pairs SamePos (idxFrom k ts) (idxFrom k ts')
  | [], [], _, _ => .cons ⟨rfl, rfl⟩ .nil
  | [], _ :: _, _, h => by simp at h
  | _ :: _, [], _, h => by simp at h
  | _ :: _, _ :: _, k, h => .cons ⟨rfl, rfl⟩ (idxFrom_alt (k + 2) (by simpa using h))

theorem placeNode_alt (he : Even c) {n n' : NT} {x y : Cst TokL} (hx : Derives n (strip x)) (hy : Derives n' (strip y))
    (h : Rw c (strip x) (strip y)) (hp : Pairs SamePos x.yield y.yield) :
    (placeNode x).span = (placeNode y).span ∧ Twin c Eq (placeNode x) (placeNode y) := by
  have := place_alt he x y h hp
  rw [placeC_node hx, placeC_node hy] at this
  exact this

/-- The same for the first tokens of a sequence. -/
theorem attach_alt (he : Even c) {n n' : NT} {x y : C} {us vs : List TokL} {rest rest' : List Token} (hx : Derives n x) (hy : Derives n' y)
    (h : Rw c x y) (hp : Pairs SamePos us vs) (hu : us.map (·.tok) = x.yield ++ rest) (hv : vs.map (·.tok) = y.yield ++ rest') :
    ((placeNode (attach x us).1).span = (placeNode (attach y vs).1).span ∧
      Twin c Eq (placeNode (attach x us).1) (placeNode (attach y vs).1)) ∧ Pairs SamePos (attach x us).2 (attach y vs).2 ∧
    (attach x us).2.map (·.tok) = rest ∧ (attach y vs).2.map (·.tok) = rest' := by
  obtain ⟨h1, h2, h3⟩ := attach_ok x us rest hu
  obtain ⟨k1, k2, k3⟩ := attach_ok y vs rest' hv
  have hl : (attach y vs).1.yield.length = (attach x us).1.yield.length := by
    rw [← strip_length, ← strip_length, h1, k1]
    exact rw_length he h
  rw [h2, k2] at hp
  obtain ⟨p1, p2⟩ := Pairs.split hl hp
  exact ⟨placeNode_alt he (by rw [h1]; exact hx) (by rw [k1]; exact hy) (by rw [h1, k1]; exact h) p1, p2, h3, k3⟩

theorem idxFrom_toks (ts : List Token) (k : Nat) : (idxFrom k ts).map (·.tok) = ts ++ [.eof] := by
  obtain ⟨us, h1, h2⟩ := idxFrom_split ts k
  rw [h1, List.map_append, h2]
  rfl

theorem rw_refl_sheBang (w : Str) : Rw c (.node (.sheBang w) [.tok (.sheBang w)]) (.node (.sheBang w) [.tok (.sheBang w)]) :=
  .node (by rfl) (.cons .tok .nil)

/-- The trees of source and output have their gaps at the same numbers. -/
theorem idxTree_alt (he : Even c) {ts ts' : List Token} {sb : Option Str} {b b' : Option C}
    (h : parseChunk (ts ++ [.eof]) = some (sbTree sb, b)) (h' : parseChunk (ts' ++ [.eof]) = some (sbTree sb, b'))
    (hb : BlockRw c b b') (hl : ts'.length = ts.length) : Twin c Eq (idxTree ts (sbTree sb) b) (idxTree ts' (sbTree sb) b') := by
  obtain ⟨_, h2, h3⟩ := parseChunk_sound h
  obtain ⟨_, k2, k3⟩ := parseChunk_sound h'
  have hp := idxFrom_alt (ts := ts) (ts' := ts') 0 hl
  have e1 := idxFrom_toks ts 0
  have e2 := idxFrom_toks ts' 0
  have hs : ∀ w, Derives .sheBangLine (.node (.sheBang w) [.tok (.sheBang w)]) := fun w => .leaf rfl
  unfold idxTree
  rw [hl]
  rw [h3] at e1
  rw [k3] at e2
  match sb, b, b', hb with
  | none, none, none, _ => exact .mk (TwinTag.refl _) pairs_eq (.cons (.mk (TwinTag.refl _) .nil .nil) .nil)
  | none, some x, some y, hb =>
    obtain ⟨⟨a1, a2⟩, _⟩ := attach_alt he (h2 x rfl) (k2 y rfl) hb hp (rest := [.eof]) (rest' := [.eof])
      (by simpa [sbTree, Cst.yields] using e1) (by simpa [sbTree, Cst.yields] using e2)
    simp only [sbTree, Option.map_none, placeChunk, a1]
    exact .mk (TwinTag.refl _) pairs_eq (.cons a2 .nil)
  | some w, none, none, _ =>
    obtain ⟨⟨a1, a2⟩, _⟩ := attach_alt he (hs w) (hs w) (rw_refl_sheBang w) hp e1 e2
    simp only [sbTree, Option.map_some, placeChunk, a1]
    exact .mk (TwinTag.refl _) pairs_eq (.cons a2 .nil)
  | some w, some x, some y, hb =>
    obtain ⟨⟨a1, a2⟩, a3, a4, a5⟩ := attach_alt he (hs w) (hs w) (rw_refl_sheBang w) hp (rest := x.yield ++ [.eof])
      (rest' := y.yield ++ [.eof]) (by simpa [sbTree, Cst.yields, Cst.yield] using e1) (by simpa [sbTree, Cst.yields, Cst.yield] using e2)
    obtain ⟨⟨b1, b2⟩, _⟩ := attach_alt he (h2 x rfl) (k2 y rfl) hb a3 a4 a5
    simp only [sbTree, Option.map_some, placeChunk, a1, b1]
    exact .mk (TwinTag.refl _) pairs_eq (.cons a2 (.cons b2 .nil))

mutual
theorem twin_locs : ∀ {n n' : Node}, Twin c Eq n n' → n'.allLocs = n.allLocs
  | _, _, .mk _ hl hk => by simp [Node.allLocs, twins_locs hk, pairs_eq_inv hl]
theorem twins_locs : ∀ {ns ns' : List Node}, Twins c Eq ns ns' → Node.allLocsAll ns' = Node.allLocsAll ns
  | _, _, .nil => rfl
  | _, _, .cons h hs => by simp [Node.allLocsAll, twin_locs h, twins_locs hs]
theorem pairs_eq_inv : ∀ {ls ls' : List Loc}, Pairs Eq ls ls' → ls' = ls
  | _, _, .nil => rfl
  | _, _, .cons rfl h => by rw [pairs_eq_inv h]
end

mutual
theorem twin_move {φ ψ : Nat → Nat} {G : Loc → Loc → Prop} : ∀ {n n' : Node}, Twin c Eq n n' →
    (∀ l ∈ n.allLocs, G (l.move φ) (l.move ψ)) → Twin c G (n.move φ) (n'.move ψ)
  | _, _, .mk ht hl hk, h => by
    obtain rfl := pairs_eq_inv (c := c) hl
    exact .mk ht (pairs_map (fun l hl => h l (List.mem_append_left _ hl))) (twins_move hk (fun l hl => h l (List.mem_append_right _ hl)))
theorem twins_move {φ ψ : Nat → Nat} {G : Loc → Loc → Prop} : ∀ {ns ns' : List Node}, Twins c Eq ns ns' →
    (∀ l ∈ Node.allLocsAll ns, G (l.move φ) (l.move ψ)) → Twins c G (Node.moveAll φ ns) (Node.moveAll ψ ns')
  | _, _, .nil, _ => .nil
  | _, _, .cons h hs, hG => .cons (twin_move h (fun l hl => hG l (List.mem_append_left _ hl)))
      (twins_move hs (fun l hl => hG l (List.mem_append_right _ hl)))
end

/-! ### Comments written again -/

theorem trimStart_twice (s : Str) : trimStart (trimStart s) = trimStart s := by
  obtain ⟨w, h1, h2⟩ := trimStart_split s
  have := trimStart_padL h1 (trimStart s)
  rw [← h2] at this
  exact this.symm

theorem trimEnd_twice (s : Str) : trimEnd (trimEnd s) = trimEnd s := by
  obtain ⟨w, h1, h2⟩ := trimEnd_split s
  have := trimEnd_padR h1 (trimEnd s)
  rw [← h2] at this
  exact this.symm

theorem trim_twice (s : Str) : trim (trim s) = trim s := by
  show trim (trimEnd (trimStart s)) = _
  rw [trim_trimEnd, trim_trimStart]

/-- The new comment is written like the comment. -/
theorem newComment_sim (hh : BlankHints c) (e : Elem) : ElemSim c e (newComment c e) := by
  cases e with
  | tok t => exact ⟨rfl, rfl⟩
  | line s =>
    refine ⟨?_, rfl⟩
    simp only [newComment, Elem.ctok, ctokText]
    cases hp : c.str .hintBeforeOnelineCommentText with
    | none => rfl
    | some p =>
      obtain ⟨p1, p2, p3⟩ := hh.oneline p hp
      by_cases hs : trimStart s = []
      · have : trimStart ([] : Str) = [] := rfl
        simp [hs, this]
      · have := trimStart_padL (.of_blank p2) (trimStart s)
        simp [hs, this, trimStart_twice]
  | long n s =>
    refine ⟨?_, rfl⟩
    simp only [newComment, Elem.ctok, ctokText]
    cases hp : c.str .hintBeforeMultilineCommentText with
    | none =>
      cases hq : c.str .hintAfterMultilineCommentText with
      | none => rfl
      | some q => simp only [trimEnd_padR (.of_blank (hh.multiAfter q hq).2), trimEnd_twice]
    | some p =>
      cases hq : c.str .hintAfterMultilineCommentText with
      | none => simp only [trimStart_padL (.of_blank (hh.multiBefore p hp)), trimStart_twice]
      | some q =>
        simp only [trim_padR (.of_blank (hh.multiAfter q hq).2), trim_padL (.of_blank (hh.multiBefore p hp)), trim_twice]

/-- Each comment of the source is written in the same place. -/
theorem rewrites_cut (he : Even c) (hh : BlankHints c) (hk : c.bool .removeComments ≠ some true) {es es' : List Elem}
    (h : Rewrites c es es') : ∀ n, Pairs (ElemSim c) (cut es n) (cut es' n) := by
  induction h with
  | nil => intro n; exact .nil
  | tok _ _ ih =>
    intro n
    cases n with
    | zero => exact .nil
    | succ n => exact ih n
  | @comment e e' es es' _ h2 _ ih =>
    intro n
    have hn : e' = newComment c e := by
      cases e <;> cases e' <;> simp only [CommentRewrite] at h2
      · exact h2.2.2 he.range
      · exact h2.2.2.2 he.range
    subst hn
    have hs := newComment_sim hh e
    cases e with
    | tok t => exact h2.elim
    | line s =>
      cases n with
      | zero => exact .cons hs (ih 0)
      | succ n => exact ih (n + 1)
    | long m s =>
      cases n with
      | zero => exact .cons hs (ih 0)
      | succ n => exact ih (n + 1)
  | noComment h => exact absurd h hk
  | kept h => exact absurd he.range h
  | dropSep _ _ h =>
    rcases h with h | h
    · rw [he.trail] at h; cases h
    · exact absurd h he.table
  | addSep _ _ h => rw [he.trail] at h; cases h

/-- There are as many tokens in the output. -/
theorem rewrites_length (he : Even c) {es es' : List Elem} (h : Rewrites c es es') : (tokensOf es').length = (tokensOf es).length := by
  induction h with
  | nil => rfl
  | tok _ _ ih => simp [tokensOf, ih]
  | @comment e e' es es' _ h2 _ ih =>
    cases e <;> cases e' <;> simp only [CommentRewrite] at h2
    · exact ih
    · exact ih
  | @noComment e es es' _ h2 _ ih =>
    cases e with
    | tok => cases h2
    | line => exact ih
    | long => exact ih
  | kept h => exact absurd he.range h
  | dropSep _ _ h =>
    rcases h with h | h
    · rw [he.trail] at h; cases h
    · exact absurd h he.table
  | addSep _ _ h => rw [he.trail] at h; cases h

end Luafmt
