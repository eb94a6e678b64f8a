import Verif.Proofs.RewriteTree
import Verif.Proofs.LuaString
import Verif.Proofs.OutElems
import Verif.Props.Trees

/-
Rewritten derivation trees are placed as trees for the same program.
-/
namespace Luafmt
open Spec

variable {c : Config}

/-! ### Inversion -/

theorem Rw.tok_inv {t : Token} {y : C} (h : Rw c (.tok t) y) : y = .tok t := by
  cases h; rfl

theorem Rw.node_inv {tag : Tag} {cs : List C} {y : C} (h : Rw c (.node tag cs) y) :
    (tag.isFields = false ∧ ∃ cs', y = .node tag cs' ∧ RwAll c cs cs') ∨
    (∃ s, tag = .charStringLiteral s ∧ c.bool .convertCharstringToNormalstring = some true ∧ cs = [.tok (.charString s)] ∧
      y = .node (.normalStringLiteral (charToNormal s)) [.tok (.normalString (charToNormal s))]) ∨
    (tag.isFields = true ∧ ∃ cs', y = .node tag cs' ∧ RwFields c cs cs') := by
  cases h with
  | node h1 h2 => exact .inl ⟨h1, _, rfl, h2⟩
  | str h => exact .inr (.inl ⟨_, rfl, h, rfl, rfl⟩)
  | fields h1 h2 => exact .inr (.inr ⟨h1, _, rfl, h2⟩)

theorem RwAll.nil_inv {ys : List C} (h : RwAll c [] ys) : ys = [] := by
  cases h; rfl

theorem RwAll.cons_inv {x : C} {xs ys : List C} (h : RwAll c (x :: xs) ys) :
    ∃ y ys', ys = y :: ys' ∧ Rw c x y ∧ RwAll c xs ys' := by
  cases h with
  | cons h1 h2 => exact ⟨_, _, rfl, h1, h2⟩

theorem RwFields.inv2 {x : C} {cs cs' : List C} (h : RwFields c (x :: cs) cs') :
    ∃ x' r, cs' = x' :: r ∧ Rw c x x' ∧
    ((cs = [] ∧ ((r = [] ∧ LastSeparator c [] []) ∨ ∃ s, r = [.tok s] ∧ isFieldSep s = true ∧ LastSeparator c [] (spell s))) ∨
     (∃ t, cs = [.tok t] ∧ isFieldSep t = true ∧ ((r = [] ∧ LastSeparator c (spell t) []) ∨
        ∃ s, r = [.tok s] ∧ isFieldSep s = true ∧ LastSeparator c (spell t) (spell s))) ∨
     (∃ t xs s r', cs = .tok t :: xs ∧ r = .tok s :: r' ∧ isFieldSep t = true ∧ isFieldSep s = true ∧
        Separator c (spell t) (spell s) ∧ RwFields c xs r')) := by
  generalize hz : x :: cs = zs at h
  cases h with
  | none hx hl => cases hz; exact ⟨_, _, rfl, hx, .inl ⟨rfl, .inl ⟨rfl, hl⟩⟩⟩
  | add hx hs hl => cases hz; exact ⟨_, _, rfl, hx, .inl ⟨rfl, .inr ⟨_, rfl, hs, hl⟩⟩⟩
  | drop hx hs hl => cases hz; exact ⟨_, _, rfl, hx, .inr (.inl ⟨_, rfl, hs, .inl ⟨rfl, hl⟩⟩)⟩
  | keep hx hs hs' hl => cases hz; exact ⟨_, _, rfl, hx, .inr (.inl ⟨_, rfl, hs, .inr ⟨_, rfl, hs', hl⟩⟩)⟩
  | cons hx hs hs' he hr => cases hz; exact ⟨_, _, rfl, hx, .inr (.inr ⟨_, _, _, _, rfl, rfl, hs, hs', he, hr⟩)⟩

/-! ### Separators -/

/-- The separators of a list. -/
def sepTexts : List C → List Str
  | [] => []
  | [_] => [[]]
  | _ :: .tok s :: ps => sepText s :: sepTexts ps
  | _ :: .node t ys :: ps => [] :: sepTexts (.node t ys :: ps)

theorem sepLocs_texts : ∀ (xs : List (Cst TokL)) (pre : Loc), (sepLocs pre (placeAll xs)).2 = sepTexts (stripAll xs)
  | [], _ => rfl
  | [x], _ => rfl
  | x :: .tok s :: xs, pre => by
    simp only [placeAll, placeC, sepLocs, stripAll, strip, sepTexts]
    rw [sepLocs_texts xs]
  | x :: .node t ys :: xs, pre => by
    simp only [placeAll, placeC, sepLocs, stripAll, strip, sepTexts]
    have := sepLocs_texts (.node t ys :: xs) ⟨(placeC x).span.r, (buildNode t (placeAll ys)).span.l⟩
    simp only [placeAll, placeC, stripAll, strip] at this
    rw [this]

theorem rwAll_texts : ∀ (n : Nat) {xs ys : List C}, xs.length ≤ n → RwAll c xs ys → sepTexts ys = sepTexts xs
  | 0, xs, ys, hn, h => by
    cases List.length_eq_zero_iff.mp (Nat.le_zero.mp hn)
    rw [h.nil_inv]
  | n + 1, xs, ys, hn, h => by
    cases xs with
    | nil => rw [h.nil_inv]
    | cons x xs =>
      obtain ⟨y, ys, rfl, hx, h⟩ := h.cons_inv
      cases xs with
      | nil => rw [h.nil_inv]; rfl
      | cons z zs =>
        obtain ⟨z', zs', rfl, hz, h'⟩ := h.cons_inv
        have hm : zs.length + 1 ≤ n := by simpa using hn
        cases z with
        | tok s =>
          rw [hz.tok_inv]
          simp only [sepTexts]
          rw [rwAll_texts n (by omega) h']
        | node t us =>
          have ih := rwAll_texts n (by simpa using hm) h
          rcases hz.node_inv with ⟨_, cs', rfl, _⟩ | ⟨_, _, _, _, rfl⟩ | ⟨_, cs', rfl, _⟩
          all_goals
            simp only [sepTexts]
            rw [ih]

theorem sepText_field {s : Token} (h : isFieldSep s = true) : sepText s = spell s := sepText_of (tag := .fields [] false false) (.inr ⟨rfl, h⟩)

theorem sepTexts_ne {x : C} {xs : List C} : ∃ s ss, sepTexts (x :: xs) = s :: ss := by
  cases xs with
  | nil => exact ⟨_, _, rfl⟩
  | cons y ys => cases y <;> exact ⟨_, _, rfl⟩

theorem RwFields.ne {xs ys : List C} (h : RwFields c xs ys) : ∃ x xs' y ys', xs = x :: xs' ∧ ys = y :: ys' := by
  cases h <;> exact ⟨_, _, _, _, rfl, rfl⟩

theorem rwFields_texts : ∀ (n : Nat) {xs ys : List C}, xs.length ≤ n → RwFields c xs ys →
    FieldSeparators c (sepTexts xs) (sepTexts ys)
  | n, [], _, _, h => h.not_nil.elim
  | 0, _ :: _, _, hn, _ => by simp at hn
  | n + 1, x :: xs, ys, hn, h => by
    obtain ⟨x', r, rfl, hx, ⟨rfl, ⟨rfl, hq⟩ | ⟨s, rfl, hs, hq⟩⟩ | ⟨t, rfl, ht, ⟨rfl, hq⟩ | ⟨s, rfl, hs, hq⟩⟩ |
      ⟨t, zs, s, r', rfl, rfl, ht, hs, he, hq⟩⟩ := h.inv2
    · exact hq
    · simpa [sepTexts, sepText_field hs, FieldSeparators] using hq
    · simpa [sepTexts, sepText_field ht, FieldSeparators] using hq
    · simpa [sepTexts, sepText_field ht, sepText_field hs, FieldSeparators] using hq
    · have ih := rwFields_texts n (by simp at hn; omega) hq
      obtain ⟨z, zs, z', zs', rfl, rfl⟩ := hq.ne
      simp only [sepTexts, sepText_field ht, sepText_field hs]
      obtain ⟨a, as, ea⟩ := sepTexts_ne (x := z) (xs := zs)
      obtain ⟨b, bs, eb⟩ := sepTexts_ne (x := z') (xs := zs')
      rw [ea, eb] at ih ⊢
      exact ⟨he, ih⟩

/-! ### Trees -/

/-- Both parts are tokens, or nodes for the same program. -/
def SamePart (c : Config) : Part → Part → Prop
  | .tok _, .tok _ => True
  | .node n, .node n' => SameProgram c n n'
  | _, _ => False

theorem SameTag.refl {t : Tag} (h : t.isFields = false) : SameTag c t t := by
  cases t <;> first | rfl | exact .inl rfl | cases h

theorem setSeps_isFields (ss : List Str) (t : Tag) : (t.setSeps ss).isFields = t.isFields := by
  cases t <;> rfl

theorem samePart_tok {t : Token} {y : Cst TokL} {u : TokL} (h : strip y = .tok t) : SamePart c (.tok u) (placeC y) := by
  cases y with
  | tok v => trivial
  | node t ys => simp [strip] at h

theorem samePart_build {tag : Tag} {xs ys : List (Cst TokL)} (hf : tag.isFields = false)
    (ht : sepTexts (stripAll ys) = sepTexts (stripAll xs))
    (h : SamePrograms c ((placeAll xs).filterMap Part.node?) ((placeAll ys).filterMap Part.node?)) :
    SameProgram c (buildNode tag (placeAll xs)) (buildNode tag (placeAll ys)) := by
  unfold buildNode
  split
  · simp only [sepLocs_texts, ht, SameProgram]
    exact ⟨SameTag.refl (by rw [setSeps_isFields]; exact hf), h⟩
  · split
    · exact ⟨SameTag.refl hf, h⟩
    · exact ⟨SameTag.refl hf, h⟩

theorem samePart_fields {tag : Tag} {xs ys : List (Cst TokL)} (hf : tag.isFields = true)
    (ht : FieldSeparators c (sepTexts (stripAll xs)) (sepTexts (stripAll ys)))
    (h : SamePrograms c ((placeAll xs).filterMap Part.node?) ((placeAll ys).filterMap Part.node?)) :
    SameProgram c (buildNode tag (placeAll xs)) (buildNode tag (placeAll ys)) := by
  cases tag <;> simp [Tag.isFields] at hf
  simp only [buildNode, Tag.seps, Tag.setSeps, sepLocs_texts, SameProgram]
  exact ⟨⟨_, rfl, ht⟩, h⟩

theorem samePart_cons {x y : Cst TokL} {xs ys : List (Cst TokL)} (hx : SamePart c (placeC x) (placeC y))
    (h : SamePrograms c ((placeAll xs).filterMap Part.node?) ((placeAll ys).filterMap Part.node?)) :
    SamePrograms c ((placeAll (x :: xs)).filterMap Part.node?) ((placeAll (y :: ys)).filterMap Part.node?) := by
  simp only [placeAll, List.filterMap_cons]
  cases hp : placeC x with
  | tok t =>
    cases hq : placeC y with
    | tok u => exact h
    | node m => rw [hp, hq] at hx; exact hx.elim
  | node n =>
    cases hq : placeC y with
    | tok u => rw [hp, hq] at hx; exact hx.elim
    | node m =>
      rw [hp, hq] at hx
      exact ⟨hx, h⟩

theorem stripAll_eq_cons {ys : List (Cst TokL)} {z : C} {zs : List C} (h : stripAll ys = z :: zs) :
    ∃ y ys', ys = y :: ys' ∧ strip y = z ∧ stripAll ys' = zs := by
  cases ys with
  | nil => cases h
  | cons y ys =>
    simp only [stripAll, List.cons.injEq] at h
    exact ⟨y, ys, rfl, h.1, h.2⟩

theorem nodes_toks {xs : List (Cst TokL)} {t : Token} (h : stripAll xs = [.tok t]) :
    (placeAll xs).filterMap Part.node? = [] := by
  obtain ⟨y, ys, rfl, h1, h2⟩ := stripAll_eq_cons h
  obtain ⟨u, rfl, _⟩ := strip_tok h1
  cases stripAll_nil h2
  rfl

theorem nodes_tok_cons {y : Cst TokL} {ys : List (Cst TokL)} {t : Token} (h : strip y = .tok t) :
    (placeAll (y :: ys)).filterMap Part.node? = (placeAll ys).filterMap Part.node? := by
  obtain ⟨u, rfl, _⟩ := strip_tok h
  rfl

mutual
theorem place_same : ∀ (x y : Cst TokL), Rw c (strip x) (strip y) → SamePart c (placeC x) (placeC y)
  | .tok t, y, h => samePart_tok (t := t.tok) h.tok_inv
  | .node tag xs, y, h => by
    simp only [strip] at h
    rcases h.node_inv with ⟨hf, cs', e, h1⟩ | ⟨s, e1, h1, e2, e3⟩ | ⟨hf, cs', e, h1⟩
    · cases y with
      | tok u => cases e
      | node tag' ys =>
        simp only [strip, Cst.node.injEq] at e
        obtain ⟨rfl, rfl⟩ := e
        exact samePart_build hf (rwAll_texts _ (Nat.le_refl _) h1) (places_same xs ys h1)
    · cases y with
      | tok u => cases e3
      | node tag' ys =>
        simp only [strip, Cst.node.injEq] at e3
        obtain ⟨rfl, e4⟩ := e3
        subst e1
        refine ⟨.inr ⟨h1, _, rfl, fun v hv => convert_run false .plain s (by simp [Agree]) v hv⟩, ?_⟩
        rw [nodes_toks e2, nodes_toks e4]
        trivial
    · cases y with
      | tok u => cases e
      | node tag' ys =>
        simp only [strip, Cst.node.injEq] at e
        obtain ⟨rfl, rfl⟩ := e
        exact samePart_fields hf (rwFields_texts _ (Nat.le_refl _) h1) (fields_same xs ys h1)
theorem places_same : ∀ (xs ys : List (Cst TokL)), RwAll c (stripAll xs) (stripAll ys) →
    SamePrograms c ((placeAll xs).filterMap Part.node?) ((placeAll ys).filterMap Part.node?)
  | [], ys, h => by
    cases stripAll_nil h.nil_inv
    trivial
  | x :: xs, ys, h => by
    simp only [stripAll] at h
    obtain ⟨z, zs, e, hx, hr⟩ := h.cons_inv
    obtain ⟨y, ys, rfl, rfl, rfl⟩ := stripAll_eq_cons e
    exact samePart_cons (place_same x y hx) (places_same xs ys hr)
theorem fields_same : ∀ (xs ys : List (Cst TokL)), RwFields c (stripAll xs) (stripAll ys) →
    SamePrograms c ((placeAll xs).filterMap Part.node?) ((placeAll ys).filterMap Part.node?)
  | [], ys, h => h.not_nil.elim
  | x :: xs, ys, h => by
    simp only [stripAll] at h
    obtain ⟨x', r, e, hx, hr⟩ := h.inv2
    obtain ⟨y, ys, rfl, rfl, rfl⟩ := stripAll_eq_cons e
    refine samePart_cons (place_same x y hx) ?_
    rcases hr with ⟨e1, ⟨e2, _⟩ | ⟨s, e2, _⟩⟩ | ⟨t, e1, _, ⟨e2, _⟩ | ⟨s, e2, _⟩⟩ | ⟨t, zs, s, r', e1, e2, _, _, _, hr⟩
    · rw [stripAll_nil e1, stripAll_nil e2]; trivial
    · rw [stripAll_nil e1, nodes_toks e2]; trivial
    · rw [stripAll_nil e2, nodes_toks e1]; trivial
    · rw [nodes_toks e1, nodes_toks e2]; trivial
    · match xs, e1 with
      | x2 :: xs, e1 =>
        simp only [stripAll, List.cons.injEq] at e1
        obtain ⟨y2, ys, rfl, e3, e4⟩ := stripAll_eq_cons e2
        rw [nodes_tok_cons e1.1, nodes_tok_cons e3]
        exact fields_same xs ys (by rw [e1.2, e4]; exact hr)
end

/-! ### Programs -/

theorem placeC_node {n : NT} {x : Cst TokL} (h : Derives n (strip x)) : placeC x = .node (placeNode x) := by
  obtain ⟨tag, ys, rfl⟩ := strip_derives h
  rfl

theorem placeNode_same {n n' : NT} {x y : Cst TokL} (hx : Derives n (strip x)) (hy : Derives n' (strip y))
    (h : Rw c (strip x) (strip y)) : SameProgram c (placeNode x) (placeNode y) := by
  have := place_same x y h
  rw [placeC_node hx, placeC_node hy] at this
  exact this

/-- A part and what is written for it. -/
structure Written (c : Config) (A : TokL → TokL → Prop) (x x' : Cst TokL) : Prop where
  derives : ∃ n, Derives n (strip x) ∧ Derives n (strip x')
  rw : Rw c (strip x) (strip x')
  corr : Corr A x x'

/-- What is written for the tokens of a part, if they are attached to it. -/
theorem attach_follows {A : TokL → TokL → Prop} {n : NT} {x : C} (h : Derives n x) {ps : List TokL} {rest : List Token}
    (hp : ps.map (·.tok) = x.yield ++ rest) {ts' os : List TokL}
    (hO : Outs c A ps ((placeNode (attach x ps).1).items c) ts' os) :
    ts' = (attach x ps).2 ∧ ∃ x', x'.yield = os ∧ Written c A (attach x ps).1 x' ∧ Derives n (strip x') := by
  obtain ⟨h1, h2, h3⟩ := attach_ok x ps rest hp
  have hd : Derives n (strip (attach x ps).1) := by rw [h1]; exact h
  have := place_follows c (attach x ps).1 (.inr ⟨n, hd⟩) A (attach x ps).2 ts' os
  rw [placeC_node hd, toksIn, ← h2] at this
  obtain ⟨e1, x', e2, e3, e4⟩ := this hO
  exact ⟨e1, x', e2, ⟨⟨n, hd, derives_rw hd e3⟩, e3, e4⟩, derives_rw hd e3⟩

mutual
theorem attach_strip : ∀ (x : Cst TokL) (rest : List TokL), attach (strip x) (x.yield ++ rest) = (x, rest)
  | .tok t, rest => by simp [strip, Cst.yield, attach]
  | .node tag xs, rest => by simp [strip, Cst.yield, attach, attachAll_strip xs rest]
theorem attachAll_strip : ∀ (xs : List (Cst TokL)) (rest : List TokL),
    attachAll (stripAll xs) (Cst.yields xs ++ rest) = (xs, rest)
  | [], rest => by simp [stripAll, Cst.yields, attachAll]
  | x :: xs, rest => by
    simp [stripAll, Cst.yields, attachAll, attach_strip x, attachAll_strip xs]
end

/-- The tree for a shebang line. -/
def sbTree (sb : Option Str) : Option C := sb.map (fun s => .node (.sheBang s) [.tok (.sheBang s)])

/-- The tokens of a chunk. -/
structure ChunkToks (ts : List Token) (sb : Option Str) (b : Option C) : Prop where
  block : ∀ x, b = some x → Derives .block x
  toks : ts = (sb.map Token.sheBang).toList ++ ((b.map Cst.yield).getD [] ++ [.eof])

theorem parseChunk_toks {ts : List Token} {s b : Option C} (h : parseChunk ts = some (s, b)) :
    ∃ sb, s = sbTree sb ∧ ChunkToks ts sb b := by
  obtain ⟨h1, h2, h3⟩ := parseChunk_sound h
  cases s with
  | none =>
    refine ⟨none, rfl, h2, ?_⟩
    cases b <;> simpa [Cst.yields] using h3
  | some s =>
    obtain ⟨w, rfl⟩ := h1 s rfl
    refine ⟨some w, rfl, h2, ?_⟩
    cases b <;> simpa [Cst.yields, Cst.yield] using h3

/-- The tree of a source with these tokens. -/
theorem parseLua_toks {src : Str} {toks : List TokL} (hl : lexLua src = some toks) {sb : Option Str} {b : Option C}
    (h : ChunkToks (toks.map (·.tok)) sb b) : parseLua src = some (placeChunk src.length toks (sbTree sb) b) := by
  unfold parseLua
  rw [hl]
  simp only [Option.bind_eq_bind, Option.bind_some]
  rw [parseChunk_complete (sb := sb) (b := b) ⟨h.block, by rw [h.toks, ← List.append_assoc]; rfl⟩]
  rfl

/-- The trees of two chunks with related parts. -/
inductive ChunkPair (P : Cst TokL → Cst TokL → Prop) (e e' : Nat) : Node → Node → Prop
  | empty : ChunkPair P e e' (.mk .chunk ⟨0, e⟩ [⟨0, e⟩, ⟨e, e⟩] [.mk .statementList ⟨e, e⟩ [] []])
      (.mk .chunk ⟨0, e'⟩ [⟨0, e'⟩, ⟨e', e'⟩] [.mk .statementList ⟨e', e'⟩ [] []])
  | one {x x' : Cst TokL} : P x x' → ChunkPair P e e'
      (.mk .chunk ⟨0, (placeNode x).span.l⟩ [⟨0, (placeNode x).span.l⟩, ⟨(placeNode x).span.r, e⟩] [placeNode x])
      (.mk .chunk ⟨0, (placeNode x').span.l⟩ [⟨0, (placeNode x').span.l⟩, ⟨(placeNode x').span.r, e'⟩] [placeNode x'])
  | two {w w' x x' : Cst TokL} : P w w' → P x x' → ChunkPair P e e'
      (.mk .sheBangChunk ⟨0, (placeNode w).span.l⟩
        [⟨0, (placeNode w).span.l⟩, ⟨(placeNode w).span.r, (placeNode x).span.l⟩, ⟨(placeNode x).span.r, e⟩]
        [placeNode w, placeNode x])
      (.mk .sheBangChunk ⟨0, (placeNode w').span.l⟩
        [⟨0, (placeNode w').span.l⟩, ⟨(placeNode w').span.r, (placeNode x').span.l⟩, ⟨(placeNode x').span.r, e'⟩]
        [placeNode w', placeNode x'])

theorem one_items (a b : Loc) (n : Node) : (Node.mk Tag.chunk ⟨0, n.span.l⟩ [a, b] [n]).items c =
    .gap a [] :: (n.items c ++ [.gap b []]) := by
  show [Item.gap _ []] ++ (n.items c ++ ([Item.gap _ []] ++ [])) = _
  simp [locAt]

theorem two_items (a b d : Loc) (n m : Node) : (Node.mk Tag.sheBangChunk ⟨0, n.span.l⟩ [a, b, d] [n, m]).items c =
    .gap a [] :: (n.items c ++ .gap b [] :: (m.items c ++ [.gap d []])) := by
  show [Item.gap _ []] ++ (n.items c ++ ([Item.gap _ []] ++ (m.items c ++ ([Item.gap _ []] ++ [])))) = _
  simp [locAt]

/-- The trees of the source and of the output. -/
theorem outs_pair {A : TokL → TokL → Prop} {src out : Str} {tree : Node} {toks os : List TokL} {e e' : TokL}
    (hp : parseLua src = some tree) (hl : lexLua src = some (toks ++ [e])) (he : e.tok = .eof)
    (hO : Outs c A (toks ++ [e]) (tree.items c) [e] os) (hl' : lexLua out = some (os ++ [e'])) (he' : e'.tok = .eof) :
    ∃ tree', parseLua out = some tree' ∧ ChunkPair (Written c A) src.length out.length tree tree' := by
  unfold parseLua at hp
  rw [hl] at hp
  simp only [Option.bind_eq_bind, Option.bind_some, Option.bind_eq_some_iff, Option.some.injEq, Prod.exists] at hp
  obtain ⟨s, b, hc, rfl⟩ := hp
  obtain ⟨sb, rfl, h⟩ := parseChunk_toks hc
  have h3 := h.toks
  have hs : ∀ w, Derives .sheBangLine (.node (.sheBang w) [.tok (.sheBang w)]) := fun w => .leaf rfl
  have hrs : ∀ w x', Rw c (.node (.sheBang w) [.tok (.sheBang w)]) x' → x' = .node (.sheBang w) [.tok (.sheBang w)] := by
    intro w x' h
    rcases h.node_inv with ⟨_, cs', rfl, h6⟩ | ⟨_, h6, _⟩ | ⟨h6, _⟩
    · obtain ⟨y, ys, rfl, h4, h5⟩ := h6.cons_inv
      rw [h4.tok_inv, h5.nil_inv]
    · cases h6
    · cases h6
  cases sb with
  | none =>
    cases b with
    | none =>
      have e : (placeChunk src.length (toks ++ [e]) (sbTree none) none).items c = [.gap ⟨0, src.length⟩ [], .gap ⟨src.length, src.length⟩ []] := rfl
      rw [e] at hO
      obtain ⟨_, rfl⟩ := hO.gap_inv.gap_inv.nil_inv
      refine ⟨_, parseLua_toks hl' (sb := none) (b := none) ⟨by simp, by simp [he']⟩, ?_⟩
      exact .empty
    | some x =>
      have hx := h.block x rfl
      simp only [Option.map_none, Option.map_some, Option.toList_none, Option.getD_some, List.nil_append] at h3
      simp only [placeChunk, sbTree, Option.map_none] at hO ⊢
      have h4 := fun ts' os => attach_follows (A := A) (c := c) hx h3 (ts' := ts') (os := os)
      generalize attach x (toks ++ [e]) = r at hO h4 ⊢
      rw [one_items] at hO
      obtain ⟨us, o1, o2, hO1, hO2, rfl⟩ := hO.gap_inv.split
      obtain ⟨rfl, x', rfl, hw, hd⟩ := h4 _ _ hO1
      obtain ⟨_, rfl⟩ := hO2.gap_inv.nil_inv
      rw [List.append_nil] at hl'
      refine ⟨_, parseLua_toks hl' (sb := none) (b := some (strip x')) ⟨?_, by simp [he', strip_yield]⟩, ?_⟩
      · intro z hz
        cases hz
        exact hd
      · simp only [placeChunk, sbTree, Option.map_none, attach_strip]
        exact .one hw
  | some w =>
    cases b with
    | none =>
      simp only [Option.map_none, Option.map_some, Option.toList_some, Option.getD_none, List.nil_append] at h3
      simp only [placeChunk, sbTree, Option.map_some] at hO ⊢
      have h4 := fun ts' os => attach_follows (A := A) (c := c) (hs w) (rest := [.eof]) (by rw [h3]; rfl) (ts' := ts') (os := os)
      obtain ⟨k1, _, _⟩ := attach_ok (.node (.sheBang w) [.tok (.sheBang w)]) (toks ++ [e]) [.eof] (by rw [h3]; rfl)
      generalize attach (.node (.sheBang w) [.tok (.sheBang w)]) (toks ++ [e]) = r at hO h4 k1 ⊢
      rw [one_items] at hO
      obtain ⟨us, o1, o2, hO1, hO2, rfl⟩ := hO.gap_inv.split
      obtain ⟨rfl, x', rfl, hw, hd⟩ := h4 _ _ hO1
      obtain ⟨_, rfl⟩ := hO2.gap_inv.nil_inv
      have k2 := hw.rw
      rw [k1] at k2
      have k3 := hrs w _ k2
      rw [List.append_nil] at hl'
      refine ⟨_, parseLua_toks hl' (sb := some w) (b := none) ⟨by simp, ?_⟩, ?_⟩
      · rw [List.map_append, ← strip_yield, k3]
        simp [he', Cst.yield, Cst.yields]
      · simp only [placeChunk, sbTree, Option.map_some]
        rw [← k3, attach_strip]
        exact .one hw
    | some x =>
      have hx := h.block x rfl
      simp only [Option.map_some, Option.toList_some, Option.getD_some] at h3
      simp only [placeChunk, sbTree, Option.map_some] at hO ⊢
      have h4 := fun ts' os => attach_follows (A := A) (c := c) (hs w) (rest := x.yield ++ [.eof]) (by rw [h3]; rfl) (ts' := ts') (os := os)
      obtain ⟨k1, _, k3⟩ := attach_ok (.node (.sheBang w) [.tok (.sheBang w)]) (toks ++ [e]) (x.yield ++ [.eof]) (by rw [h3]; rfl)
      generalize attach (.node (.sheBang w) [.tok (.sheBang w)]) (toks ++ [e]) = r at hO h4 k1 k3 ⊢
      have h5 := fun ts' os => attach_follows (A := A) (c := c) hx k3 (ts' := ts') (os := os)
      generalize attach x r.2 = r' at hO h5 ⊢
      rw [two_items] at hO
      obtain ⟨us, o1, o2, hO1, hO2, rfl⟩ := hO.gap_inv.split
      obtain ⟨rfl, w', rfl, hw, _⟩ := h4 _ _ hO1
      obtain ⟨us, o3, o4, hO3, hO4, rfl⟩ := hO2.gap_inv.split
      obtain ⟨rfl, x', rfl, hw', hd'⟩ := h5 _ _ hO3
      obtain ⟨_, rfl⟩ := hO4.gap_inv.nil_inv
      have k2 := hw.rw
      rw [k1] at k2
      have k3 := hrs w _ k2
      rw [List.append_nil] at hl'
      refine ⟨_, parseLua_toks hl' (sb := some w) (b := some (strip x')) ⟨?_, ?_⟩, ?_⟩
      · intro z hz
        cases hz
        exact hd'
      · rw [List.map_append, List.map_append, ← strip_yield, ← strip_yield, k3]
        simp [he', Cst.yield, Cst.yields]
      · simp only [placeChunk, sbTree, Option.map_some]
        rw [← k3, List.append_assoc, attach_strip, attach_strip]
        exact .two hw hw'

/-- The tree of the output. -/
theorem outs_parse {A : TokL → TokL → Prop} {src out : Str} {tree : Node} {toks os : List TokL} {e e' : TokL}
    (hp : parseLua src = some tree) (hl : lexLua src = some (toks ++ [e])) (he : e.tok = .eof)
    (hO : Outs c A (toks ++ [e]) (tree.items c) [e] os) (hl' : lexLua out = some (os ++ [e'])) (he' : e'.tok = .eof) :
    ∃ tree', parseLua out = some tree' ∧ SameProgram c tree tree' := by
  obtain ⟨tree', h1, h2⟩ := outs_pair hp hl he hO hl' he'
  refine ⟨tree', h1, ?_⟩
  have key : ∀ {x x' : Cst TokL}, Written c A x x' → SameProgram c (placeNode x) (placeNode x') :=
    fun h => h.derives.elim fun _ k => placeNode_same k.1 k.2 h.rw
  cases h2 with
  | empty => exact ⟨SameTag.refl rfl, ⟨SameTag.refl rfl, trivial⟩, trivial⟩
  | one h => exact ⟨SameTag.refl rfl, key h, trivial⟩
  | two h h' => exact ⟨SameTag.refl rfl, key h, key h', trivial⟩

end Luafmt
