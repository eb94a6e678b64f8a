import Verif.Proofs.LayoutGap
import Verif.Proofs.SameTree

/-
Sources with the same tokens have trees with the same nodes and the same number of gaps; so has the output.
-/
namespace Luafmt
open Spec

variable {c : Config}

/-! ### Trees with the same nodes -/

/-- The tags are written in the same way. -/
def TwinTag (c : Config) (t t' : Tag) : Prop :=
  match t with
  | .fields ss i j => ∃ ss', t' = .fields ss' i j ∧ SepsSim c ss ss'
  | .charStringLiteral s => t' = t ∨ (c.bool .convertCharstringToNormalstring = some true ∧
      t' = .normalStringLiteral (charToNormal s))
  | t => t' = t

mutual
/-- Trees with the same nodes, and related gaps. -/
inductive Twin (c : Config) (G : Loc → Loc → Prop) : Node → Node → Prop
  | mk {t t' sp sp' ls ls' ks ks'} : TwinTag c t t' → Pairs G ls ls' → Twins c G ks ks' →
      Twin c G (.mk t sp ls ks) (.mk t' sp' ls' ks')
inductive Twins (c : Config) (G : Loc → Loc → Prop) : List Node → List Node → Prop
  | nil : Twins c G [] []
  | cons {n n' ns ns'} : Twin c G n n' → Twins c G ns ns' → Twins c G (n :: ns) (n' :: ns')
end

theorem SepsSim.refl : ∀ ss : List Str, SepsSim c ss ss
  | [] => .nil
  | [_] => .last rfl
  | _ :: t :: ss => .cons rfl rfl (SepsSim.refl (t :: ss))

theorem TwinTag.refl (t : Tag) : TwinTag c t t := by
  cases t <;> first | rfl | exact .inl rfl | exact ⟨_, rfl, SepsSim.refl _⟩

theorem TwinTag.seq {t t' : Tag} (h : TwinTag c t t') : (t = .fieldSequential ↔ t' = .fieldSequential) := by
  cases t <;> simp only [TwinTag] at h
  case fields => obtain ⟨_, rfl, _⟩ := h; simp
  case charStringLiteral => rcases h with rfl | ⟨_, rfl⟩ <;> simp
  all_goals subst h; simp

theorem TwinTag.child {t t' : Tag} (h : TwinTag c t t') (over : Option Bool) (k : Nat) :
    childSingle over t' k = childSingle over t k := by
  cases t <;> simp only [TwinTag] at h
  case fields => obtain ⟨_, rfl, _⟩ := h; rfl
  case charStringLiteral => rcases h with rfl | ⟨_, rfl⟩ <;> rfl
  all_goals subst h; rfl

theorem AlikeAll.seqs {env env' : Env} : ∀ {ks ks' : List Node}, AlikeAll c env env' ks ks' →
    ks'.all Node.isSeq = ks.all Node.isSeq
  | _, _, .nil => rfl
  | _, _, .cons h hs => by
    simp only [List.all_cons, AlikeAll.seqs hs]
    congr 1
    cases h with
    | mk ht _ _ => cases ht <;> rfl

theorem annotateTag_twin {env env' : Env} {t t' : Tag} (h : TwinTag c t t') (over : Option Bool) {ks ks' : List Node}
    (hk : AlikeAll c env env' ks ks') : TagSim c (annotateTag c over t ks) (annotateTag c over t' ks') := by
  cases t <;> simp only [TwinTag] at h
  case fields =>
    obtain ⟨_, rfl, h⟩ := h
    simp only [annotateTag, hk.seqs]
    exact .fields h
  case charStringLiteral =>
    rcases h with rfl | ⟨h, rfl⟩
    · exact .refl
    · simp only [annotateTag, h, if_true]
      exact .refl
  case tableConstructor =>
    subst h
    simp only [annotateTag]
    cases hk with
    | nil => exact .refl
    | cons h hs =>
      cases hs with
      | cons _ _ => exact .refl
      | nil =>
        cases h with
        | mk ht _ _ => cases ht <;> exact .refl
  all_goals subst h; exact .refl

theorem Pairs.length {α β : Type} {P : α → β → Prop} {as : List α} {bs : List β} (h : Pairs P as bs) : bs.length = as.length := by
  induction h with
  | nil => rfl
  | cons _ _ ih => simp [ih]

theorem Twins.length {G : Loc → Loc → Prop} : ∀ {ns ns' : List Node}, Twins c G ns ns' → ns'.length = ns.length
  | _, _, .nil => rfl
  | _, _, .cons _ h => by simp [Twins.length h]

mutual
/-- Trees with the same nodes are written alike, if their gaps are. -/
theorem annotate_alike {env env' : Env} {G : Loc → Loc → Prop} (hG : ∀ l l', G l l' → SameGap c env env' l l') :
    ∀ {n n' : Node}, Twin c G n n' → ∀ (over : Option Bool), Alike c env env' (annotate c over n) (annotate c over n')
  | _, _, .mk ht hl hk, over => by
    unfold annotate
    simp only [ht.child, hk.length]
    exact .mk (annotateTag_twin ht over (annotateAll_alike hG hk _)) (pairs_mono hG hl) (annotateAll_alike hG hk _)
theorem annotateAll_alike {env env' : Env} {G : Loc → Loc → Prop} (hG : ∀ l l', G l l' → SameGap c env env' l l') :
    ∀ {ns ns' : List Node}, Twins c G ns ns' → ∀ (over : Option Bool),
      AlikeAll c env env' (annotateAll c over ns) (annotateAll c over ns')
  | _, _, .nil, _ => .nil
  | _, _, .cons h hs, over => .cons (annotate_alike hG h over) (annotateAll_alike hG hs over)
theorem pairs_mono {α β : Type} {P Q : α → β → Prop} (h : ∀ a b, P a b → Q a b) : ∀ {as : List α} {bs : List β},
    Pairs P as bs → Pairs Q as bs
  | _, _, .nil => .nil
  | _, _, .cons h1 h2 => .cons (h _ _ h1) (pairs_mono h h2)
end

/-- Trees with the same nodes are written alike, if their gaps are. -/
theorem format_twin (hn : NoOneLine c) (hr : c.lineRange = none) {src src' : Str} {tree tree' : Node}
    (h : parseLua src = some tree) (h' : parseLua src' = some tree')
    (hz : SameGap c ⟨src, none⟩ ⟨src', none⟩ ⟨0, 0⟩ ⟨0, 0⟩) (ht : Twin c (SameGap c ⟨src, none⟩ ⟨src', none⟩) tree tree') :
    format c src' = format c src := by
  have := writeTree_alike hn (env := ⟨src, none⟩) (env' := ⟨src', none⟩) rfl rfl hz
    (annotate_alike (fun _ _ h => h) ht none)
  unfold format
  rw [h, h']
  simp only
  unfold formatTree effectiveRange lineRangeToPosRange
  rw [hr]
  simp only [Res.pure_eq, Res.bind_ok, growRange_none]
  rw [this]

/-! ### Lengths -/

/-- Nothing is said about the gaps. -/
def AnyGaps (_ _ : Loc) : Prop := True

theorem pairs_any : ∀ {ls ls' : List Loc}, ls'.length = ls.length → Pairs AnyGaps ls ls'
  | [], [], _ => .nil
  | [], _ :: _, h => by simp at h
  | _ :: _, [], h => by simp at h
  | _ :: ls, _ :: ls', h => .cons trivial (pairs_any (by simpa using h))

theorem sepLocs_length : ∀ (pre : Loc) (ps : List Part), (sepLocs pre ps).1.length = 2 * (sepLocs pre ps).2.length
  | _, [] => rfl
  | _, [_] => rfl
  | pre, p :: .tok s :: ps => by
    simp only [sepLocs, List.length_cons, sepLocs_length _ ps]
    omega
  | pre, p :: .node n :: ps => by
    simp only [sepLocs, List.length_cons, sepLocs_length _ (.node n :: ps)]
    omega

theorem gaps_length {xs ys : List (Cst TokL)} (h : (stripAll ys).length = (stripAll xs).length) :
    (gapsOf (placeAll ys)).length = (gapsOf (placeAll xs)).length := by
  have e : ∀ zs : List (Cst TokL), (stripAll zs).length = zs.length := by
    intro zs
    induction zs with
    | nil => rfl
    | cons z zs ih => simp [stripAll, ih]
  rw [e, e] at h
  simp [gapsOf_length, placeAll_length, h]

theorem RwAll.length {xs ys : List C} (h : RwAll c xs ys) : ys.length = xs.length := by
  match xs, ys, h with
  | _, _, .nil => rfl
  | _, _, .cons _ h => simp [RwAll.length h]

/-! ### Separators -/

theorem lastText_idem (s : Str) : lastText c s = lastText c (lastText c s) := by
  unfold lastText
  cases c.bool .writeTrailingFieldSeparator with
  | none =>
    simp only
    cases c.str .fieldSeparator with
    | none => simp
    | some f => by_cases h : s = [] <;> by_cases h2 : f = [] <;> simp [h, h2]
  | some b =>
    cases b
    · rfl
    · cases c.str .fieldSeparator <;> rfl

theorem lastText_getD {s : Str} (hs : s ≠ []) : lastText c s = lastText c ((c.str .fieldSeparator).getD s) := by
  unfold lastText
  cases c.bool .writeTrailingFieldSeparator with
  | none =>
    simp only
    cases c.str .fieldSeparator with
    | none => simp [hs]
    | some f => by_cases h2 : f = [] <;> simp [hs, h2]
  | some b =>
    cases b
    · rfl
    · cases c.str .fieldSeparator <;> rfl

theorem seps_sim (hc : c.bool .forceSingleLineTable ≠ some true ∧ c.lineRange = none) : ∀ {ss ss' : List Str}, FieldSeparators c ss ss' →
    (∀ s ∈ ss.dropLast, s ≠ []) → SepsSim c ss ss'
  | [], [], _, _ => .nil
  | [], _ :: _, h, _ => h.elim
  | [s], [s'], h, _ => by
    rcases h with h | ⟨_, h⟩ | ⟨h, _⟩
    · refine .last ?_
      rw [h]
      exact lastText_idem s
    · exact absurd h hc.1
    · exact absurd hc.2 h
  | s :: t :: ss, s' :: t' :: ss', h, hn => by
    obtain ⟨rfl | ⟨h0, _⟩, h⟩ := h
    case inr => exact absurd hc.2 h0
    refine .cons ?_ (lastText_getD (hn s (by simp))) (seps_sim hc h (fun x hx => hn x (by simp [hx])))
    cases c.str .fieldSeparator <;> rfl
  | [_], [], h, _ => h.elim
  | [_], _ :: _ :: _, h, _ => by
    obtain ⟨_, h⟩ := h
    exact h.elim
  | _ :: _ :: _, [], h, _ => h.elim
  | _ :: _ :: ss, [_], h, _ => by
    obtain ⟨_, h⟩ := h
    cases ss <;> exact False.elim h

theorem fieldSep_ne {t : Token} (h : isFieldSep t = true) : spell t ≠ [] := by
  cases t <;> simp [isFieldSep] at h <;> simp [spell]

theorem rwFields_ne : ∀ (n : Nat) {xs ys : List C}, xs.length ≤ n → RwFields c xs ys →
    ∀ s ∈ (sepTexts xs).dropLast, s ≠ []
  | n, [], _, _, h => h.not_nil.elim
  | 0, _ :: _, _, hn, _ => by simp at hn
  | n + 1, x :: xs, ys, hn, h => by
    obtain ⟨x', r, rfl, hx, ⟨rfl, _⟩ | ⟨t, rfl, ht, _⟩ | ⟨t, zs, s, r', rfl, rfl, ht, hs, he, hq⟩⟩ := h.inv2
    · simp [sepTexts]
    · simp [sepTexts]
    · have ih := rwFields_ne n (by simp at hn; omega) hq
      obtain ⟨z, zs, z', zs', rfl, rfl⟩ := hq.ne
      simp only [sepTexts, sepText_field ht]
      obtain ⟨a, as, ea⟩ := sepTexts_ne (x := z) (xs := zs)
      rw [ea] at ih ⊢
      intro u hu
      simp only [List.dropLast_cons₂, List.mem_cons] at hu
      rcases hu with rfl | hu
      · exact fieldSep_ne ht
      · exact ih u hu

theorem fieldSeparators_length : ∀ {ss ss' : List Str}, FieldSeparators c ss ss' → ss'.length = ss.length
  | [], [], _ => rfl
  | [], _ :: _, h => h.elim
  | [_], [_], _ => rfl
  | s :: t :: ss, s' :: t' :: ss', h => by
    have := fieldSeparators_length h.2
    simpa using this
  | [_], [], h => h.elim
  | [_], _ :: _ :: _, h => by
    obtain ⟨_, h⟩ := h
    exact h.elim
  | _ :: _ :: _, [], h => h.elim
  | _ :: _ :: ss, [_], h => by
    obtain ⟨_, h⟩ := h
    cases ss <;> exact False.elim h

/-! ### Rewritten trees -/

/-- Both parts are tokens, or nodes with the same nodes. -/
def TwinPart (c : Config) : Part → Part → Prop
  | .tok _, .tok _ => True
  | .node n, .node n' => Twin c AnyGaps n n'
  | _, _ => False

theorem twin_build {tag : Tag} {xs ys : List (Cst TokL)}
    (ht : sepTexts (stripAll ys) = sepTexts (stripAll xs)) (hl : (stripAll ys).length = (stripAll xs).length)
    (h : Twins c AnyGaps ((placeAll xs).filterMap Part.node?) ((placeAll ys).filterMap Part.node?)) :
    Twin c AnyGaps (buildNode tag (placeAll xs)) (buildNode tag (placeAll ys)) := by
  unfold buildNode
  split
  · simp only [sepLocs_texts, ht]
    refine .mk (TwinTag.refl _) (pairs_any ?_) h
    rw [sepLocs_length, sepLocs_length, sepLocs_texts, sepLocs_texts, ht]
  · split
    · exact .mk (TwinTag.refl _) (pairs_any (by simp [gaps_length hl])) h
    · exact .mk (TwinTag.refl _) (pairs_any (by simp [gaps_length hl])) h

theorem twin_fields (hc : c.bool .forceSingleLineTable ≠ some true ∧ c.lineRange = none) {tag : Tag} {xs ys : List (Cst TokL)} (hf : tag.isFields = true)
    (ht : FieldSeparators c (sepTexts (stripAll xs)) (sepTexts (stripAll ys)))
    (hn : ∀ s ∈ (sepTexts (stripAll xs)).dropLast, s ≠ [])
    (h : Twins c AnyGaps ((placeAll xs).filterMap Part.node?) ((placeAll ys).filterMap Part.node?)) :
    Twin c AnyGaps (buildNode tag (placeAll xs)) (buildNode tag (placeAll ys)) := by
  cases tag <;> simp [Tag.isFields] at hf
  simp only [buildNode, Tag.seps, Tag.setSeps, sepLocs_texts]
  refine .mk ⟨_, rfl, seps_sim hc ht hn⟩ (pairs_any ?_) h
  rw [sepLocs_length, sepLocs_length, sepLocs_texts, sepLocs_texts, fieldSeparators_length ht]

theorem twin_cons {x y : Cst TokL} {xs ys : List (Cst TokL)} (hx : TwinPart c (placeC x) (placeC y))
    (h : Twins c AnyGaps ((placeAll xs).filterMap Part.node?) ((placeAll ys).filterMap Part.node?)) :
    Twins c AnyGaps ((placeAll (x :: xs)).filterMap Part.node?) ((placeAll (y :: ys)).filterMap Part.node?) := by
  simp only [placeAll, List.filterMap_cons]
  cases hp : placeC x with
  | tok t =>
    cases hq : placeC y with
    | tok u => exact h
    | node m => rw [hp, hq] at hx; exact hx.elim
  | node n =>
    cases hq : placeC y with
    | tok u => rw [hp, hq] at hx; exact hx.elim
    | node m =>
      rw [hp, hq] at hx
      exact .cons hx h

mutual
theorem place_twin (hc : c.bool .forceSingleLineTable ≠ some true ∧ c.lineRange = none) : ∀ (x y : Cst TokL), Rw c (strip x) (strip y) →
    TwinPart c (placeC x) (placeC y)
  | .tok t, y, h => by
    have e : strip y = .tok t.tok := h.tok_inv
    cases y with
    | tok v => trivial
    | node t ys => simp [strip] at e
  | .node tag xs, y, h => by
    simp only [strip] at h
    rcases h.node_inv with ⟨hf, cs', e, h1⟩ | ⟨s, e1, h1, e2, e3⟩ | ⟨hf, cs', e, h1⟩
    · cases y with
      | tok u => cases e
      | node tag' ys =>
        simp only [strip, Cst.node.injEq] at e
        obtain ⟨rfl, rfl⟩ := e
        exact twin_build (rwAll_texts _ (Nat.le_refl _) h1) h1.length (places_twin hc xs ys h1)
    · cases y with
      | tok u => cases e3
      | node tag' ys =>
        simp only [strip, Cst.node.injEq] at e3
        obtain ⟨rfl, e4⟩ := e3
        subst e1
        refine .mk (.inr ⟨h1, rfl⟩) (pairs_any ?_) ?_
        · exact gaps_length (by rw [e2, e4]; rfl)
        · rw [nodes_toks e2, nodes_toks e4]
          exact .nil
    · cases y with
      | tok u => cases e
      | node tag' ys =>
        simp only [strip, Cst.node.injEq] at e
        obtain ⟨rfl, rfl⟩ := e
        exact twin_fields hc hf (rwFields_texts _ (Nat.le_refl _) h1) (rwFields_ne _ (Nat.le_refl _) h1) (fields_twin hc xs ys h1)
theorem places_twin (hc : c.bool .forceSingleLineTable ≠ some true ∧ c.lineRange = none) : ∀ (xs ys : List (Cst TokL)),
    RwAll c (stripAll xs) (stripAll ys) →
    Twins c AnyGaps ((placeAll xs).filterMap Part.node?) ((placeAll ys).filterMap Part.node?)
  | [], ys, h => by
    cases stripAll_nil h.nil_inv
    exact .nil
  | x :: xs, ys, h => by
    simp only [stripAll] at h
    obtain ⟨z, zs, e, hx, hr⟩ := h.cons_inv
    obtain ⟨y, ys, rfl, rfl, rfl⟩ := stripAll_eq_cons e
    exact twin_cons (place_twin hc x y hx) (places_twin hc xs ys hr)
theorem fields_twin (hc : c.bool .forceSingleLineTable ≠ some true ∧ c.lineRange = none) : ∀ (xs ys : List (Cst TokL)),
    RwFields c (stripAll xs) (stripAll ys) →
    Twins c AnyGaps ((placeAll xs).filterMap Part.node?) ((placeAll ys).filterMap Part.node?)
  | [], ys, h => h.not_nil.elim
  | x :: xs, ys, h => by
    simp only [stripAll] at h
    obtain ⟨x', r, e, hx, hr⟩ := h.inv2
    obtain ⟨y, ys, rfl, rfl, rfl⟩ := stripAll_eq_cons e
    refine twin_cons (place_twin hc x y hx) ?_
    rcases hr with ⟨e1, ⟨e2, _⟩ | ⟨s, e2, _⟩⟩ | ⟨t, e1, _, ⟨e2, _⟩ | ⟨s, e2, _⟩⟩ | ⟨t, zs, s, r', e1, e2, _, _, _, hr⟩
    · rw [stripAll_nil e1, stripAll_nil e2]; exact .nil
    · rw [stripAll_nil e1, nodes_toks e2]; exact .nil
    · rw [stripAll_nil e2, nodes_toks e1]; exact .nil
    · rw [nodes_toks e1, nodes_toks e2]; exact .nil
    · match xs, e1 with
      | x2 :: xs, e1 =>
        simp only [stripAll, List.cons.injEq] at e1
        obtain ⟨y2, ys, rfl, e3, e4⟩ := stripAll_eq_cons e2
        rw [nodes_tok_cons e1.1, nodes_tok_cons e3]
        exact fields_twin hc xs ys (by rw [e1.2, e4]; exact hr)
end

theorem placeNode_twin (hc : c.bool .forceSingleLineTable ≠ some true ∧ c.lineRange = none) {n n' : NT} {x y : Cst TokL} (hx : Derives n (strip x))
    (hy : Derives n' (strip y)) (h : Rw c (strip x) (strip y)) : Twin c AnyGaps (placeNode x) (placeNode y) := by
  have := place_twin hc x y h
  rw [placeC_node hx, placeC_node hy] at this
  exact this

/-- The tree of the output has the same nodes as the tree of the source. -/
theorem outs_twin {A : TokL → TokL → Prop} (hc : c.bool .forceSingleLineTable ≠ some true ∧ c.lineRange = none) {src out : Str} {tree : Node}
    {toks os : List TokL} {e e' : TokL} (hp : parseLua src = some tree) (hl : lexLua src = some (toks ++ [e])) (he : e.tok = .eof)
    (hO : Outs c A (toks ++ [e]) (tree.items c) [e] os) (hl' : lexLua out = some (os ++ [e'])) (he' : e'.tok = .eof) :
    ∃ tree', parseLua out = some tree' ∧ Twin c AnyGaps tree tree' := by
  obtain ⟨tree', h1, h2⟩ := outs_pair hp hl he hO hl' he'
  refine ⟨tree', h1, ?_⟩
  have key : ∀ {x x' : Cst TokL}, Written c A x x' → Twin c AnyGaps (placeNode x) (placeNode x') :=
    fun h => h.derives.elim fun _ k => placeNode_twin hc k.1 k.2 h.rw
  cases h2 with
  | empty => exact .mk (TwinTag.refl _) (pairs_any rfl) (.cons (.mk (TwinTag.refl _) .nil .nil) .nil)
  | one h => exact .mk (TwinTag.refl _) (pairs_any rfl) (.cons (key h) .nil)
  | two h h' => exact .mk (TwinTag.refl _) (pairs_any rfl) (.cons (key h) (.cons (key h') .nil))

end Luafmt
