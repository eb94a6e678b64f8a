import Verif.Props.Trees

/-
C16: what a config file sets.
-/
namespace Luafmt
open Spec

/-! ### Nodes built from derivation trees -/

theorem buildNode_kids (tag : Tag) (ps : List Part) : (buildNode tag ps).kids = ps.filterMap Part.node? := by
  unfold buildNode
  cases tag.seps <;> simp only
  · split <;> rfl
  · rfl

theorem buildNode_tag (tag : Tag) (ps : List Part) : ∃ ss, (buildNode tag ps).tag = tag ∨ (buildNode tag ps).tag = tag.setSeps ss := by
  unfold buildNode
  cases tag.seps <;> simp only
  · split <;> exact ⟨[], .inl rfl⟩
  · exact ⟨_, .inr rfl⟩

/-- The part for a tree with a node at its root. -/
theorem place_node {n : NT} {y : Cst TokL} (h : Derives n (strip y)) : (placeC y).node? = some (placeNode y) := by
  obtain ⟨tag, ys, rfl⟩ := strip_derives h
  rfl

/-- The tag and the parts of a placed tree. -/
theorem placeNode_eq (tag : Tag) (ys : List (Cst TokL)) : placeNode (.node tag ys) = buildNode tag (placeAll ys) := rfl

theorem optionValue_leaf : ∀ p ∈ prods, p.2.1 ≠ .true_ → p.2.1 ≠ .false_ →
    (match p.2.1 with | .numeral _ | .normalStringLiteral _ | .charStringLiteral _ | .true_ | .false_ => true | _ => false) = false := by
  decide +kernel

theorem true_prods : ∀ p ∈ prods, (p.2.1 = .true_ → p.2.2 = [.t .kwTrue]) ∧ (p.2.1 = .false_ → p.2.2 = [.t .kwFalse]) := by
  decide +kernel

/-- Expressions with one token are determined by it. -/
theorem exp_unique {x y : C} (hx : Derives .opExp x) (hy : Derives .opExp y) (h : x.yield = y.yield) : x = y := by
  have h1 := (parseReq_comp (32 * x.yield.length + 21)).nt hx (by decide) (Nat.le_refl _) .eof [] rfl
  have h2 := (parseReq_comp (32 * x.yield.length + 21)).nt hy (by decide) (by rw [h]; exact Nat.le_refl _) .eof [] rfl
  rw [h] at h1
  rw [h] at h2
  simpa using h1.symm.trans h2

theorem opExp_of_exp {x : C} (h : Derives .exp x) : Derives .opExp x := by
  have hs : ∀ k, k ≤ 11 → Derives (.op (11 - k)) x := by
    intro k hk
    induction k with
    | zero => exact .chain (b := .exp) (by decide +kernel) h
    | succ k ih =>
      have := ih (by omega)
      have hm : ∀ k < 11, (NT.op (11 - (k + 1)), NT.op (11 - k)) ∈ chains := by decide +kernel
      exact .chain (hm k (by omega)) this
  exact .chain (b := .op 0) (by decide +kernel) (hs 11 (by omega))

/-- The tree of a literal. -/
theorem literal_tree {t : Token} {v : Str} (h : literalText t = some v) :
    ∃ tag, Derives .opExp (.node tag [.tok t]) ∧ ∀ (s : Loc) ls ks, optionValue (.mk tag s ls ks) = some v := by
  cases t with
  | numeral s =>
    cases h
    exact ⟨.numeral v, opExp_of_exp (.leaf rfl), fun _ _ _ => rfl⟩
  | normalString s =>
    cases h
    exact ⟨.normalStringLiteral v, opExp_of_exp (.chain (b := .stringLiteral) (by decide +kernel) (.leaf rfl)), fun _ _ _ => rfl⟩
  | charString s =>
    cases h
    exact ⟨.charStringLiteral v, opExp_of_exp (.chain (b := .stringLiteral) (by decide +kernel) (.leaf rfl)), fun _ _ _ => rfl⟩
  | kwTrue =>
    cases h
    exact ⟨.true_, opExp_of_exp (.prod (ss := [.t .kwTrue]) (by decide +kernel) (.t .nil)), fun _ _ _ => rfl⟩
  | kwFalse =>
    cases h
    exact ⟨.false_, opExp_of_exp (.prod (ss := [.t .kwFalse]) (by decide +kernel) (.t .nil)), fun _ _ _ => rfl⟩
  | _ => cases h

/-- The value of a tag, as `optionValue`. -/
def tagValue : Tag → Option Str
  | .numeral s | .normalStringLiteral s | .charStringLiteral s => some s
  | .true_ => some L!"true"
  | .false_ => some L!"false"
  | _ => none

theorem optionValue_eq (n : Node) : optionValue n = tagValue n.tag := by
  unfold optionValue tagValue
  cases n.tag <;> rfl

theorem tagValue_setSeps (tag : Tag) (ss : List Str) : tagValue (tag.setSeps ss) = tagValue tag := by
  cases tag <;> rfl

theorem value_prods : ∀ p ∈ prods, tagValue p.2.1 = none ∨ (p.2.1 = .true_ ∧ p.2.2 = [.t .kwTrue]) ∨
    (p.2.1 = .false_ ∧ p.2.2 = [.t .kwFalse]) := by
  decide +kernel

/-- The value of an expression in a config file is that of its only token. -/
theorem value_exp {y : Cst TokL} (h : Derives .opExp (strip y)) :
    optionValue (placeNode y) = (match (strip y).yield with | [t] => literalText t | _ => none) := by
  obtain ⟨tag, ys, rfl⟩ := strip_derives h
  have ht : optionValue (placeNode (.node tag ys)) = tagValue tag := by
    rw [optionValue_eq, placeNode_eq]
    obtain ⟨ss, e | e⟩ := buildNode_tag tag (placeAll ys)
    · rw [e]
    · rw [e, tagValue_setSeps]
  rw [ht]
  cases hv : tagValue tag with
  | some v =>
    rcases derives_inv h with ⟨a, tag', ss, cs, e, hp, hm⟩ | ⟨a, tag', t, e, hl⟩
    · simp only [strip, Cst.node.injEq] at e
      obtain ⟨rfl, e⟩ := e
      rcases value_prods _ hp with h' | ⟨h1, h2⟩ | ⟨h1, h2⟩
      · simp [hv] at h'
      · simp only at h1 h2
        subst h1 h2
        cases hv
        cases hm with
        | t hm => cases hm; simp [strip, Cst.yield, Cst.yields, e, literalText]
      · simp only at h1 h2
        subst h1 h2
        cases hv
        cases hm with
        | t hm => cases hm; simp [strip, Cst.yield, Cst.yields, e, literalText]
    · rw [e]
      simp only [strip, Cst.node.injEq] at e
      obtain ⟨rfl, e⟩ := e
      simp only [Cst.yield, Cst.yields, List.append_nil]
      cases t <;> simp [leafTag] at hl <;> obtain ⟨_, rfl⟩ := hl <;> simp [tagValue] at hv <;> simp [literalText, hv]
  | none =>
    split
    · next t e =>
      cases hl : literalText t with
      | none => rfl
      | some v =>
        obtain ⟨tag', h1, h2⟩ := literal_tree hl
        have := exp_unique h h1 (by rw [e]; simp [Cst.yield, Cst.yields])
        simp only [strip, Cst.node.injEq] at this
        have h3 := h2 ⟨0, 0⟩ [] []
        rw [optionValue_eq] at h3
        simp only [Node.tag] at h3
        rw [← this.1, hv] at h3
        cases h3
    · rfl

/-- The name of a tag, as `optionName`. -/
def tagName : Tag → Option Str
  | .name s => some s
  | _ => none

theorem optionName_eq (n : Node) : optionName n = tagName n.tag := by
  unfold optionName tagName
  cases n.tag <;> rfl

theorem tagName_setSeps (tag : Tag) (ss : List Str) : tagName (tag.setSeps ss) = tagName tag := by
  cases tag <;> rfl

/-- The name of a variable in a config file is that of its only token. -/
theorem name_var {y : Cst TokL} {n : NT} (hn : n = .varNoExp ∨ n = .varExp) (h : Derives n (strip y)) :
    optionName (placeNode y) = (match (strip y).yield with | [.variable s] => some s | _ => none) := by
  obtain ⟨tag, ys, rfl⟩ := strip_derives h
  have ht : optionName (placeNode (.node tag ys)) = tagName tag := by
    rw [optionName_eq, placeNode_eq]
    obtain ⟨ss, e | e⟩ := buildNode_tag tag (placeAll ys)
    · rw [e]
    · rw [e, tagName_setSeps]
  rw [ht]
  rcases hn with rfl | rfl
  · rcases inv_varNoExp h with h | ⟨x1, x2, e, h1, h2⟩
    · obtain ⟨s, e⟩ := inv_name h
      rw [e]
      simp only [strip, Cst.node.injEq] at e
      rw [e.1]
      rfl
    · have l1 := len_pos h1
      have l2 := len_pos h2
      rw [e]
      simp only [strip, Cst.node.injEq] at e
      rw [e.1]
      split
      · next s e2 =>
        have := congrArg List.length e2
        simp [Cst.yield, Cst.yields] at this
        omega
      · rfl
  · obtain ⟨x2, x4, e, h1, h2⟩ := inv_varExp h
    rw [e]
    simp only [strip, Cst.node.injEq] at e
    rw [e.1]
    simp [Cst.yield, Cst.yields, tagName]

/-! ### Statements -/

/-- The assignments of a placed tree are those of its statements. -/
def CfgOk (y : Cst TokL) : Prop :=
  configAssignments (placeNode y) = (topStatements (strip y)).filterMap firstAssignment

/-- Trees that are neither lists of statements nor assignments. -/
def plainTag : Tag → Bool
  | .statementList => false
  | .varsExprs => false
  | _ => true

theorem plain_assignments {n : Node} (h : plainTag n.tag = true) : configAssignments n = [] := by
  obtain ⟨tag, s, ls, ks⟩ := n
  unfold configAssignments
  split
  · next e => cases e; cases h
  · next e => cases e; cases h
  · rfl

theorem plain_first {tag : Tag} {cs : List C} (h : plainTag tag = true) : firstAssignment (.node tag cs) = none := by
  unfold firstAssignment
  split
  · next e => cases e; cases h
  · rfl

theorem plain_top {tag : Tag} {cs : List C} (h : plainTag tag = true) : topStatements (.node tag cs) = [.node tag cs] := by
  unfold topStatements
  split
  · next e => cases e; cases h
  · rfl

theorem plainTag_setSeps (tag : Tag) (ss : List Str) : plainTag (tag.setSeps ss) = plainTag tag := by
  cases tag <;> rfl

theorem cfg_plain {y : Cst TokL} {tag : Tag} {cs : List C} (h : strip y = .node tag cs) (hp : plainTag tag = true) : CfgOk y := by
  obtain ⟨ys, rfl, rfl⟩ := strip_node h
  unfold CfgOk
  rw [h, plain_top hp, plain_assignments]
  · simp [plain_first hp]
  · rw [placeNode_eq]
    obtain ⟨ss, e | e⟩ := buildNode_tag tag (placeAll ys)
    · rw [e]; exact hp
    · rw [e, plainTag_setSeps]; exact hp

theorem placeAll_nodes : ∀ {ys : List (Cst TokL)}, (∀ y ∈ ys, ∃ n, Derives n (strip y)) →
    (placeAll ys).filterMap Part.node? = ys.map placeNode
  | [], _ => rfl
  | y :: ys, h => by
    obtain ⟨n, hn⟩ := h y List.mem_cons_self
    simp only [placeAll, List.filterMap_cons, place_node hn, List.map_cons]
    rw [placeAll_nodes fun z hz => h z (List.mem_cons_of_mem _ hz)]

theorem stripAll_map (ys : List (Cst TokL)) : stripAll ys = ys.map strip := by
  induction ys with
  | nil => rfl
  | cons y ys ih => simp [stripAll, ih]

theorem assignmentsAll_flat (l : List Node) : configAssignmentsAll l = l.flatMap configAssignments := by
  induction l with
  | nil => simp [configAssignmentsAll]
  | cons n l ih => simp [configAssignmentsAll, ih]

theorem topAll_flat (l : List C) : topStatementsAll l = l.flatMap topStatements := by
  induction l with
  | nil => simp [topStatementsAll]
  | cons n l ih => simp [topStatementsAll, ih]

theorem cfg_list {y : Cst TokL} {cs : List C} (h : strip y = .node .statementList cs)
    (hn : ∀ c ∈ cs, ∃ n, Derives n c) (hc : ∀ z : Cst TokL, strip z ∈ cs → CfgOk z) : CfgOk y := by
  obtain ⟨ys, rfl, rfl⟩ := strip_node h
  rw [stripAll_map] at hn hc
  unfold CfgOk
  have e1 : placeNode (.node .statementList ys) =
      .mk .statementList (buildNode .statementList (placeAll ys)).span (buildNode .statementList (placeAll ys)).locs (ys.map placeNode) := by
    rw [placeNode_eq, ← placeAll_nodes (fun z hz => hn _ (List.mem_map_of_mem hz))]
    rfl
  rw [e1, h, stripAll_map]
  simp only [configAssignments, topStatements, topAll_flat, assignmentsAll_flat, List.flatMap_map, List.filterMap_flatMap]
  have : ∀ zs : List (Cst TokL), (∀ z ∈ zs, CfgOk z) → zs.flatMap (fun z => configAssignments (placeNode z)) =
      zs.flatMap (fun z => (topStatements (strip z)).filterMap firstAssignment) := by
    intro zs
    induction zs with
    | nil => intro; rfl
    | cons z zs ih =>
      intro h
      simp only [List.flatMap_cons]
      rw [ih fun z hz => h z (List.mem_cons_of_mem _ hz), h z List.mem_cons_self]
  exact this ys fun z hz => hc z (List.mem_map_of_mem hz)

/-- The first kid of a list of trees. -/
theorem head_kid {tag : Tag} {y : Cst TokL} {ys : List (Cst TokL)} {n : NT} (h : Derives n (strip y)) :
    (placeNode (.node tag (y :: ys))).kids.head? = some (placeNode y) := by
  rw [placeNode_eq, buildNode_kids]
  simp [placeAll, place_node h]

theorem cfg_assign {y : Cst TokL} {x1 x3 : C} (h : strip y = .node .varsExprs [x1, .tok .equalsSign, x3])
    (h1 : Derives .varListNoStartPar x1 ∨ Derives .varListStartsPar x1) (h3 : Derives .expList x3) : CfgOk y := by
  obtain ⟨ys, rfl, e⟩ := strip_node h
  have : ∃ y1 y2 y3, ys = [y1, y2, y3] ∧ strip y1 = x1 ∧ strip y2 = .tok .equalsSign ∧ strip y3 = x3 := by
    match ys, e with
    | [a, b, c], e => simp [stripAll] at e; exact ⟨a, b, c, rfl, e.1, e.2.1, e.2.2⟩
    | [], e => simp [stripAll] at e
    | [_], e => simp [stripAll] at e
    | [_, _], e => simp [stripAll] at e
    | _ :: _ :: _ :: _ :: _, e => simp [stripAll] at e
  obtain ⟨y1, y2, y3, rfl, rfl, e2, rfl⟩ := this
  obtain ⟨t2, rfl, e2'⟩ := strip_tok e2
  have n1 : ∃ n, Derives n (strip y1) := h1.elim (fun h => ⟨_, h⟩) (fun h => ⟨_, h⟩)
  obtain ⟨n1, hn1⟩ := n1
  have ek : placeNode (.node .varsExprs [y1, .tok t2, y3]) = .mk .varsExprs
      (buildNode .varsExprs (placeAll [y1, .tok t2, y3])).span (buildNode .varsExprs (placeAll [y1, .tok t2, y3])).locs
      [placeNode y1, placeNode y3] := by
    have : (placeAll [y1, .tok t2, y3]).filterMap Part.node? = [placeNode y1, placeNode y3] := by
      simp only [placeAll, List.filterMap_cons, place_node hn1, place_node h3, List.filterMap_nil, placeC]
      rfl
    rw [← this]
    rfl
  have et : topStatements (.node .varsExprs [strip y1, .tok .equalsSign, strip y3]) =
      [.node .varsExprs [strip y1, .tok .equalsSign, strip y3]] := by
    unfold topStatements
    rfl
  unfold CfgOk
  rw [ek, h, et]
  simp only [configAssignments, List.filterMap_cons, List.filterMap_nil]
  suffices hs : assignment (placeNode y1) (placeNode y3) =
      firstAssignment (.node .varsExprs [strip y1, .tok .equalsSign, strip y3]) by
    rw [hs]
    cases firstAssignment (.node .varsExprs [strip y1, .tok .equalsSign, strip y3]) <;> rfl
  obtain ⟨v1, vs, ev, dv, dvs⟩ := inv_expList h3
  obtain ⟨zs, rfl, ez⟩ := strip_node ev
  have : ∃ w ws, zs = w :: ws ∧ strip w = v1 := by
    match zs, ez with
    | w :: ws, ez => simp [stripAll] at ez; exact ⟨w, ws, rfl, ez.1⟩
  obtain ⟨w, ws, rfl, rfl⟩ := this
  have etag : ∃ ss, (placeNode (.node (.expList []) (w :: ws))).tag = .expList ss := by
    rw [placeNode_eq]
    obtain ⟨ss, e | e⟩ := buildNode_tag (.expList []) (placeAll (w :: ws))
    · exact ⟨_, e⟩
    · exact ⟨ss, e⟩
  obtain ⟨ss, etag⟩ := etag
  have hvar : (∃ u us n, y1 = .node (.varList []) (u :: us) ∧ (n = .varNoExp ∨ n = .varExp) ∧ Derives n (strip u)) ∨
      Derives .varExp (strip y1) := by
    have key : ∀ {n : NT} {x1 : C} {xs : List C}, strip y1 = .node (.varList []) (x1 :: xs) →
        (n = .varNoExp ∨ n = .varExp) → Derives n x1 →
        ∃ u us n, y1 = .node (.varList []) (u :: us) ∧ (n = .varNoExp ∨ n = .varExp) ∧ Derives n (strip u) := by
      intro n x1 xs e hn hd
      obtain ⟨us, rfl, eu⟩ := strip_node e
      match us, eu with
      | u :: us, eu =>
        simp [stripAll] at eu
        exact ⟨u, us, n, rfl, hn, by rw [eu.1]; exact hd⟩
    rcases h1 with h1 | h1
    · rcases inv_varListNoStartPar h1 with ⟨x1, e, d⟩ | ⟨x1, x3, xs, e, d, _⟩
      · exact .inl (key e (.inl rfl) d)
      · exact .inl (key e (.inl rfl) d)
    · rcases inv_varListStartsPar h1 with d | ⟨x1, x3, xs, e, d, _⟩
      · exact .inr d
      · exact .inl (key e (.inr rfl) d)
  rcases hvar with ⟨u, us, n, rfl, hn, du⟩ | d
  · have etag1 : ∃ ss, (placeNode (.node (.varList []) (u :: us))).tag = .varList ss := by
      rw [placeNode_eq]
      obtain ⟨ss, e | e⟩ := buildNode_tag (.varList []) (placeAll (u :: us))
      · exact ⟨_, e⟩
      · exact ⟨ss, e⟩
    obtain ⟨ss1, etag1⟩ := etag1
    unfold assignment
    rw [etag, etag1]
    simp only [head_kid du, head_kid dv, Option.bind_some, name_var hn du, value_exp dv, strip, stripAll, firstAssignment]
    generalize (strip u).yield = a
    generalize (strip w).yield = b
    split
    · next hh1 hh2 =>
      split at hh1
      · cases hh1
        split at hh2
        · simp [hh2]
        · cases hh2
      · cases hh1
    · next hne =>
      split
      · next nm t =>
        cases hl : literalText t with
        | none => rfl
        | some v => exact absurd hl (hne nm v rfl)
      · rfl
  · obtain ⟨x2, x4, e, d2, d4⟩ := inv_varExp d
    obtain ⟨zs1, rfl, ez1⟩ := strip_node e
    have etag1 : (placeNode (.node .varRoundSuffix zs1)).tag = .varRoundSuffix := by
      rw [placeNode_eq]
      obtain ⟨ss, e | e⟩ := buildNode_tag .varRoundSuffix (placeAll zs1)
      · exact e
      · exact e
    unfold assignment
    rw [etag1]
    rw [e]
    simp [strip, stripAll, firstAssignment, Cst.yield]

theorem plain_statNoPar : ∀ p ∈ prods, p.1 ∈ chainHeads .statNoPar → plainTag p.2.1 = true := by decide +kernel

theorem plain_retStat : ∀ p ∈ prods, p.1 ∈ chainHeads .retStat → plainTag p.2.1 = true := by decide +kernel

theorem leaf_plain {t : Token} {a : NT} {tag : Tag} (h : leafTag t = some (a, tag)) : plainTag tag = true := by
  cases t <;> simp [leafTag] at h <;> obtain ⟨_, rfl⟩ := h <;> rfl

theorem derives_plain {n : NT} (hn : ∀ p ∈ prods, p.1 ∈ chainHeads n → plainTag p.2.1 = true) {x : C} (h : Derives n x) :
    ∃ tag cs, x = .node tag cs ∧ plainTag tag = true := by
  rcases derives_head h with ⟨a, tag, ss, cs, h1, h2, h3, h4⟩ | ⟨a, tag, t, h1, h2⟩
  · exact ⟨tag, cs, h1, hn _ h2 h3⟩
  · exact ⟨tag, _, h1, leaf_plain h2⟩

theorem cfg_of_plain {n : NT} (hn : ∀ p ∈ prods, p.1 ∈ chainHeads n → plainTag p.2.1 = true) {y : Cst TokL}
    (h : Derives n (strip y)) : CfgOk y := by
  obtain ⟨tag, cs, e, hp⟩ := derives_plain hn h
  exact cfg_plain e hp

theorem cfg_starts {y : Cst TokL} (h : Derives .statStartsMayEndsPar (strip y)) : CfgOk y := by
  rcases inv_statStartsMayEndsPar h with h | ⟨x1, x3, e, h1, h3⟩
  · rcases inv_functionCallStartsMayEndsPar h with ⟨x2, e, _⟩ | ⟨x2, x4, e, _⟩
    · exact cfg_plain e rfl
    · exact cfg_plain e rfl
  · exact cfg_assign e (.inr h1) h3

theorem cfg_stat {y : Cst TokL} (h : Derives .stat (strip y)) : CfgOk y := by
  rcases inv_stat h with h | h | ⟨x1, x2, e, h1, h2⟩
  · exact cfg_of_plain plain_statNoPar h
  · rcases inv_statMayEndsPar h with h | ⟨x1, x3, e, h1, h3⟩ | ⟨_, _, e, _⟩ | ⟨_, e, _⟩ | ⟨_, _, e, _⟩
    · obtain ⟨_, _, e, _⟩ := inv_functionCallNoStartsMayEndsPar h
      exact cfg_plain e rfl
    · exact cfg_assign e (.inl h1) h3
    · exact cfg_plain e rfl
    · exact cfg_plain e rfl
    · exact cfg_plain e rfl
  · refine cfg_list e ?_ ?_
    · intro c hc
      simp only [List.mem_cons, List.not_mem_nil, or_false] at hc
      rcases hc with rfl | rfl
      · exact ⟨_, h1⟩
      · exact ⟨_, h2⟩
    · intro z hz
      simp only [List.mem_cons, List.not_mem_nil, or_false] at hz
      rcases hz with e | e
      · exact cfg_of_plain plain_statNoPar (by rw [e]; exact h1)
      · exact cfg_starts (by rw [e]; exact h2)

theorem many_mem {n : NT} {cs : List C} (h : Many n cs) : ∀ c ∈ cs, Derives n c := by
  induction h with
  | last h => intro c hc; simp at hc; rw [hc]; exact h
  | cons h _ ih =>
    intro c hc
    rcases List.mem_cons.mp hc with rfl | hc
    · exact h
    · exact ih c hc

theorem cfg_block {y : Cst TokL} (h : Derives .block (strip y)) (hr : ¬ ReturnsAfter (strip y)) : CfgOk y := by
  rcases inv_block h with h | h | ⟨x1, x2, e, _⟩
  · rcases inv_stats h with ⟨x1, e, h1⟩ | ⟨x1, xs, e, h1, h2⟩ | ⟨xs, e, h2⟩
    · refine cfg_list e ?_ ?_
      · intro c hc; simp at hc; exact ⟨_, hc ▸ h1⟩
      · intro z hz; simp at hz; exact cfg_starts (by rw [hz]; exact h1)
    · refine cfg_list e ?_ ?_
      · intro c hc
        rcases List.mem_cons.mp hc with rfl | hc
        · exact ⟨_, h1⟩
        · exact ⟨_, many_mem h2 c hc⟩
      · intro z hz
        rcases List.mem_cons.mp hz with e | hz
        · exact cfg_starts (by rw [e]; exact h1)
        · exact cfg_stat (many_mem h2 _ hz)
    · exact cfg_list e (fun c hc => ⟨_, many_mem h2 c hc⟩) (fun z hz => cfg_stat (many_mem h2 _ hz))
  · exact cfg_of_plain plain_retStat h
  · rw [e] at hr
    exact absurd trivial hr

/-! ### Config files -/

/-- The statements of a program. -/
def Spec.programStatements (b : Option (Cst Token)) : List (Cst Token) := (b.map topStatements).getD []

theorem settings_eq (content : Str) (toks : List TokL) (sb : Option Str) (b : Option (Cst Token))
    (hl : lexLua content = some toks) (hp : IsProgram (toks.map TokL.tok) sb b)
    (hr : ∀ x, b = some x → ¬ ReturnsAfter x) :
    ((parseLua content).bind chunkBody).map configAssignments = some ((programStatements b).filterMap firstAssignment) := by
  have hparse : parseLua content = some (placeChunk content.length toks (asParsed sb b).1 (asParsed sb b).2) := by
    unfold parseLua
    simp only [hl, Option.bind_eq_bind, Option.bind_some, parseChunk_complete hp]
  rw [hparse]
  obtain ⟨hd, hy⟩ := hp
  cases sb with
  | none =>
    cases b with
    | none => simp [asParsed, placeChunk, chunkBody, programStatements, configAssignments, configAssignmentsAll]
    | some x =>
      have hy' : toks.map TokL.tok = x.yield ++ [.eof] := by rw [hy]; simp [chunkTokens]
      have e := (attach_ok x toks _ hy').1
      have hc := cfg_block (y := (attach x toks).1) (by rw [e]; exact hd x rfl) (by rw [e]; exact hr x rfl)
      unfold CfgOk at hc
      rw [e] at hc
      simp [asParsed, placeChunk, chunkBody, programStatements, hc]
  | some s =>
    cases b with
    | none =>
      simp only [asParsed, placeChunk, chunkBody, Option.bind_some, Option.map_some, programStatements, Option.map_none,
        Option.getD_none, List.filterMap_nil]
      rw [plain_assignments]
      have ha : ∃ p ps, toks = p :: ps := by
        cases toks with
        | nil => simp [chunkTokens] at hy
        | cons p ps => exact ⟨p, ps, rfl⟩
      obtain ⟨p, ps, rfl⟩ := ha
      rfl
    | some x =>
      have hy' : toks.map TokL.tok = (Cst.node (.sheBang s) [.tok (.sheBang s)] : C).yield ++ (x.yield ++ [.eof]) := by
        rw [hy]; simp [chunkTokens, Cst.yield, Cst.yields]
      obtain ⟨_, _, h3⟩ := attach_ok _ toks _ hy'
      have e := (attach_ok x _ _ h3).1
      have hc := cfg_block (y := (attach x (attach (Cst.node (.sheBang s) [.tok (.sheBang s)]) toks).2).1)
        (by rw [e]; exact hd x rfl) (by rw [e]; exact hr x rfl)
      unfold CfgOk at hc
      rw [e] at hc
      simp [asParsed, placeChunk, chunkBody, programStatements, hc]

theorem reload_eq (c : Config) (content : Str) (toks : List TokL) (sb : Option Str) (b : Option (Cst Token))
    (hl : lexLua content = some toks) (hp : IsProgram (toks.map TokL.tok) sb b)
    (hr : ∀ x, b = some x → ¬ ReturnsAfter x) :
    c.reload content = some (c.setAll ((programStatements b).filterMap firstAssignment)) := by
  have h := settings_eq content toks sb b hl hp hr
  unfold Config.reload
  cases ht : parseLua content with
  | none => simp [ht] at h
  | some tree =>
    cases hb : chunkBody tree with
    | none => simp [ht, hb] at h
    | some x =>
      simp only [ht, hb, Option.bind_some, Option.map_some, Option.some.injEq] at h
      simp [hb, h]

/-! ### One variable and one value -/

theorem stail_comma {n : NT} {cs : List C} (h : STail n .comma cs) (hc : Cst.tok .comma ∉ cs) : cs = [] := by
  cases h with
  | nil => rfl
  | cons => simp at hc

theorem simple_none {ts : List Token} {t : Token} {us : List Token} (e : ts = t :: us) (h : t.kind ≠ .variable []) :
    simpleAssignment ts = none := by
  subst e
  unfold simpleAssignment
  split
  · next h' => cases h'; exact absurd rfl h
  · rfl

/-- What follows the name of a variable with suffixes. -/
theorem suffixes_first {x : C} (h : Derives .varSuffixList x) : ∃ t ts, x.yield = t :: ts ∧ startsSuffix t = true := by
  obtain ⟨xs, rfl, hm⟩ := inv_varSuffixList h
  cases hm with
  | last hd => obtain ⟨t, ts, h1, h2⟩ := starts_suffix hd; exact ⟨t, ts, by simp [Cst.yield, Cst.yields, h1], h2⟩
  | cons hd _ => obtain ⟨t, ts, h1, h2⟩ := starts_suffix hd; exact ⟨t, _, by simp only [Cst.yield, Cst.yields, h1]; rfl, h2⟩

theorem simple_suffix {s : Str} {t : Token} {us : List Token} (h : startsSuffix t = true) :
    simpleAssignment (.variable s :: t :: us) = none := by
  unfold simpleAssignment
  split
  · next h' =>
    simp only [List.cons.injEq] at h'
    rw [h'.2.1] at h
    cases h
  · rfl

theorem simple_assign {x1 x3 : C} (h1 : Derives .varListNoStartPar x1 ∨ Derives .varListStartsPar x1)
    (h3 : Derives .expList x3) (ho : OneValue (.node .varsExprs [x1, .tok .equalsSign, x3])) :
    firstAssignment (.node .varsExprs [x1, .tok .equalsSign, x3]) =
      simpleAssignment (Cst.node .varsExprs [x1, .tok .equalsSign, x3] : C).yield := by
  have ho := ho _ _ _ rfl
  obtain ⟨e, es, rfl, de, des⟩ := inv_expList h3
  have he := ho _ _ (.inr rfl)
  have : es = [] := stail_comma des fun h => he (List.mem_cons_of_mem _ h)
  subst this
  obtain ⟨t, ts, et, _⟩ := derives_first de
  have par : ∀ {x : C}, Derives .varExp x → ∃ us, x.yield = .openRound :: us := by
    intro x d
    obtain ⟨x2, x4, rfl, _⟩ := inv_varExp d
    exact ⟨_, by simp only [Cst.yield, Cst.yields]; rfl⟩
  have noExp : ∀ {x : C}, Derives .varNoExp x → ∀ X, simpleAssignment (x.yield ++ (.equalsSign :: X)) =
      (match x.yield, X with | [.variable n], [t] => (literalText t).map fun v => (n, v) | _, _ => none) := by
    intro x d X
    rcases inv_varNoExp d with d | ⟨z1, z2, rfl, d1, d2⟩
    · obtain ⟨s, rfl⟩ := inv_name d
      simp only [Cst.yield, Cst.yields, List.append_nil, List.singleton_append]
      match X with
      | [] => rfl
      | [t] => rfl
      | _ :: _ :: _ => rfl
    · obtain ⟨s, rfl⟩ := inv_name d1
      obtain ⟨t, ts, e1, e2⟩ := suffixes_first d2
      simp only [Cst.yield, Cst.yields, e1, List.append_nil, List.nil_append, List.cons_append]
      rw [simple_suffix e2]
  have main : ∀ {v : C} {tag : Tag} {vs : List C}, x1 = .node tag (v :: vs) → (Derives .varNoExp v ∧ vs = []) ∨ (∃ us, x1.yield = .openRound :: us ∧ ∃ us', v.yield = .openRound :: us') →
      firstAssignment (.node .varsExprs [x1, .tok .equalsSign, .node (.expList []) [e]]) =
      simpleAssignment (Cst.node .varsExprs [x1, .tok .equalsSign, .node (.expList []) [e]] : C).yield := by
    intro v tag vs hx hv
    subst hx
    rcases hv with ⟨d, rfl⟩ | ⟨us, e1, us', e2⟩
    · have := noExp d e.yield
      simp only [firstAssignment, Cst.yield, Cst.yields, List.append_nil, List.singleton_append]
      rw [this]
      generalize v.yield = a
      generalize e.yield = b
      rfl
    · simp only [Cst.yield, Cst.yields] at e1
      simp only [firstAssignment, Cst.yield, Cst.yields, List.append_nil, List.singleton_append, e1]
      rw [e2]
      simp [simpleAssignment]
  rcases h1 with h1 | h1
  · rcases inv_varListNoStartPar h1 with ⟨v, ev, d⟩ | ⟨v, v3, vs, ev, d, _⟩
    · exact main ev (.inl ⟨d, rfl⟩)
    · exact absurd (ho _ _ (.inl ev)) (by simp)
  · rcases inv_varListStartsPar h1 with d | ⟨v, v3, vs, ev, d, _⟩
    · obtain ⟨us, e1⟩ := par d
      obtain ⟨x2, x4, ev, _⟩ := inv_varExp d
      exact main ev (.inr ⟨us, e1, [], by simp [Cst.yield]⟩)
    · exact absurd (ho _ _ (.inl ev)) (by simp)

/-- The statements among `ss` are read as their tokens say. -/
def SimpleOk (ss : List C) : Prop := ∀ s ∈ ss, OneValue s → firstAssignment s = simpleAssignment s.yield

theorem simple_plain {n : NT} (hn : ∀ p ∈ prods, p.1 ∈ chainHeads n → plainTag p.2.1 = true)
    (hf : Token.variable [] ∉ firstToks n) {x : C} (h : Derives n x) : SimpleOk (topStatements x) := by
  obtain ⟨tag, cs, rfl, hp⟩ := derives_plain hn h
  obtain ⟨t, ts, e, ht⟩ := derives_first h
  rw [plain_top hp]
  intro s hs _
  simp only [List.mem_singleton] at hs
  subst hs
  rw [plain_first hp, simple_none e]
  intro hk
  rw [hk] at ht
  exact hf ht

theorem simple_top {tag : Tag} {cs : List C} {t : Token} {us : List Token} (hp : plainTag tag = true)
    (e : (Cst.node tag cs : C).yield = t :: us) (hk : t.kind ≠ .variable []) : SimpleOk (topStatements (.node tag cs)) := by
  rw [plain_top hp]
  intro s hs _
  simp only [List.mem_singleton] at hs
  subst hs
  rw [plain_first hp, simple_none e hk]

theorem assign_top (x1 x2 x3 : C) : topStatements (.node .varsExprs [x1, x2, x3]) = [.node .varsExprs [x1, x2, x3]] := by
  unfold topStatements
  rfl

theorem simple_starts {x : C} (h : Derives .statStartsMayEndsPar x) : SimpleOk (topStatements x) := by
  rcases inv_statStartsMayEndsPar h with h | ⟨x1, x3, rfl, h1, h3⟩
  · rcases inv_functionCallStartsMayEndsPar h with ⟨x2, rfl, _⟩ | ⟨x2, x4, rfl, _⟩
    · exact simple_top rfl (t := .openRound) (by simp only [Cst.yield, Cst.yields]; rfl) (by decide)
    · exact simple_top rfl (t := .openRound) (by simp only [Cst.yield, Cst.yields]; rfl) (by decide)
  · rw [assign_top]
    intro s hs ho
    simp only [List.mem_singleton] at hs
    subst hs
    exact simple_assign (.inr h1) h3 ho

theorem simple_flat {cs : List C} (h : ∀ c ∈ cs, SimpleOk (topStatements c)) : SimpleOk (topStatements (.node .statementList cs)) := by
  intro s hs
  simp only [topStatements, topAll_flat, List.mem_flatMap] at hs
  obtain ⟨c, hc, hs⟩ := hs
  exact h c hc s hs

theorem simple_stat {x : C} (h : Derives .stat x) : SimpleOk (topStatements x) := by
  rcases inv_stat h with h | h | ⟨x1, x2, rfl, h1, h2⟩
  · exact simple_plain plain_statNoPar (by decide +kernel) h
  · rcases inv_statMayEndsPar h with h | ⟨x1, x3, rfl, h1, h3⟩ | ⟨_, _, rfl, _⟩ | ⟨_, rfl, _⟩ | ⟨_, _, rfl, _⟩
    · obtain ⟨x1, x2, rfl, d1, d2⟩ := inv_functionCallNoStartsMayEndsPar h
      rw [plain_top rfl]
      intro s hs _
      simp only [List.mem_singleton] at hs
      subst hs
      rw [plain_first rfl]
      obtain ⟨nm, rfl⟩ := inv_name d1
      obtain ⟨t, ts, e1, e2⟩ := suffixes_first d2
      simp only [Cst.yield, Cst.yields, e1, List.append_nil, List.singleton_append]
      rw [simple_suffix e2]
    · rw [assign_top]
      intro s hs ho
      simp only [List.mem_singleton] at hs
      subst hs
      exact simple_assign (.inl h1) h3 ho
    · exact simple_top rfl (t := .kwRepeat) (by simp only [Cst.yield, Cst.yields]; rfl) (by decide)
    · exact simple_top rfl (t := .kwRepeat) (by simp only [Cst.yield, Cst.yields]; rfl) (by decide)
    · exact simple_top rfl (t := .kwLocal) (by simp only [Cst.yield, Cst.yields]; rfl) (by decide)
  · refine simple_flat ?_
    intro c hc
    simp only [List.mem_cons, List.not_mem_nil, or_false] at hc
    rcases hc with rfl | rfl
    · exact simple_plain plain_statNoPar (by decide +kernel) h1
    · exact simple_starts h2

theorem simple_block {x : C} (h : Derives .block x) (hr : ¬ ReturnsAfter x) : SimpleOk (topStatements x) := by
  rcases inv_block h with h | h | ⟨x1, x2, rfl, _⟩
  · rcases inv_stats h with ⟨x1, rfl, h1⟩ | ⟨x1, xs, rfl, h1, h2⟩ | ⟨xs, rfl, h2⟩
    · exact simple_flat fun c hc => by simp at hc; rw [hc]; exact simple_starts h1
    · refine simple_flat fun c hc => ?_
      rcases List.mem_cons.mp hc with rfl | hc
      · exact simple_starts h1
      · exact simple_stat (many_mem h2 c hc)
    · exact simple_flat fun c hc => simple_stat (many_mem h2 c hc)
  · exact simple_plain plain_retStat (by decide +kernel) h
  · exact absurd trivial hr

/-! ### C16 -/

/-- C16, exactly what happens: of each top-level assignment the first variable and the first value count,
when they are a name and a literal; they are set in order; every other statement has no effect. Missing
from the full claim: a file that ends in `return` after other statements (`C16_return_ignores_options`),
and statements that assign several values (`C16_second_value_ignored`). -/
theorem C16_config_file_first_values_partial (c : Config) (content : Str) (toks : List TokL) (sb : Option Str)
    (b : Option (Cst Token)) (hl : lexLua content = some toks) (hp : IsProgram (toks.map TokL.tok) sb b)
    (hr : ∀ x, b = some x → ¬ ReturnsAfter x) :
    c.reload content = some (c.setAll ((programStatements b).filterMap firstAssignment)) :=
  reload_eq c content toks sb b hl hp hr

/-- C16 for files whose assignments have one variable and one value each: the options set are the
statements `name = literal`, in order, and every other statement has no effect. -/
theorem C16_config_file_assignments_partial (c : Config) (content : Str) (toks : List TokL) (sb : Option Str)
    (b : Option (Cst Token)) (hl : lexLua content = some toks) (hp : IsProgram (toks.map TokL.tok) sb b)
    (hr : ∀ x, b = some x → ¬ ReturnsAfter x) (ho : ∀ s ∈ programStatements b, OneValue s) :
    c.reload content =
      some ((programStatements b).foldl (fun c s =>
        match simpleAssignment s.yield with
        | some (name, value) => c.set name value
        | none => c) c) := by
  rw [reload_eq c content toks sb b hl hp hr]
  have hs : SimpleOk (programStatements b) := by
    cases b with
    | none => intro s hs; cases hs
    | some x => exact simple_block (hp.1 x rfl) (hr x rfl)
  congr 1
  unfold Config.setAll
  generalize programStatements b = ss at hs ho
  induction ss generalizing c with
  | nil => rfl
  | cons s ss ih =>
    have e := hs s List.mem_cons_self (ho s List.mem_cons_self)
    have ih := fun c => ih c (fun z hz => hs z (List.mem_cons_of_mem _ hz)) (fun z hz => ho z (List.mem_cons_of_mem _ hz))
    simp only [List.filterMap_cons, List.foldl_cons, e]
    cases simpleAssignment s.yield with
    | none => exact ih c
    | some p => simp only [List.foldl_cons]; exact ih _

/-- A config file with options, an unknown name, a value that is not a literal, a local variable and an
assignment inside a block. -/
def Spec.sampleConfig : Str :=
  L!"max_width = 80\nlocal x = 1\nindentation_string = \"  \"\ndo max_width = 3 end\nmax_width = x\nf(x)"

/-- A computable form of the hypotheses of the theorem, and the assignments it finds. -/
def Spec.sampleCheck (b : C) : Bool :=
  (match b with | .node .statsRetStat _ => false | _ => true) &&
  (topStatements b).all (fun s => match s with
    | .node .varsExprs [.node _ vs, _, .node _ es] => (vs ++ es).all fun c => match c with | .tok _ => false | _ => true
    | .node .varsExprs _ => false
    | _ => true) &&
  decide ((topStatements b).map (fun s => simpleAssignment s.yield) =
      [some (L!"max_width", L!"80"), none, some (L!"indentation_string", L!"  "), none, none, none])

example : ∃ toks b, lexLua sampleConfig = some toks ∧ IsProgram (toks.map TokL.tok) none (some b) ∧
    ¬ ReturnsAfter b ∧ (∀ s ∈ programStatements (some b), OneValue s) ∧
    (programStatements (some b)).map (fun s => simpleAssignment s.yield) =
      [some (L!"max_width", L!"80"), none, some (L!"indentation_string", L!"  "), none, none, none] := by
  have hp : (match lexLua sampleConfig with
    | some toks => (match parseChunk (toks.map TokL.tok) with | some (none, some b) => sampleCheck b | _ => false)
    | none => false) = true := by decide +kernel
  cases hl : lexLua sampleConfig with
  | none => rw [hl] at hp; cases hp
  | some toks =>
    simp only [hl] at hp
    split at hp
    · next b e =>
      have hprog := (C26_parser_finds_the_tree (toks.map TokL.tok) none (some b)).2 e
      unfold sampleCheck at hp
      simp only [Bool.and_eq_true, decide_eq_true_eq] at hp
      refine ⟨toks, b, rfl, hprog, ?_, ?_, hp.2⟩
      · have := hp.1.1
        unfold ReturnsAfter
        split <;> simp_all
      · intro s hs vars op exprs es tag parts hor hc
        have := (List.all_eq_true.1 hp.1.2) s hs
        subst es
        cases vars with
        | tok t => cases this
        | node tag1 vs =>
          cases exprs with
          | tok t => cases this
          | node tag2 es =>
            simp only [List.all_eq_true] at this
            rcases hor with h | h
            · cases h; exact absurd (this _ (List.mem_append_left _ hc)) (by simp)
            · cases h; exact absurd (this _ (List.mem_append_right _ hc)) (by simp)
    · cases hp

/-- C16. A file that is not a program changes nothing: it is reported as an error. -/
theorem C16_bad_file (c : Config) (content : Str) : c.reload content = none ↔ ¬ Accepted content := by
  rw [accepted_iff]
  unfold Config.reload
  cases parseLua content with
  | none => simp
  | some t =>
    simp only [Option.isSome_some, not_true, iff_false]
    split <;> simp

/-- The full claim fails for a file that ends in `return`: the option is not set. -/
theorem C16_return_ignores_options :
    Accepted L!"indentation_string = '  '\nreturn 1" ∧
    (Config.default.reload L!"indentation_string = '  '\nreturn 1").map (·.str .indentationString) = some none ∧
    (Config.default.reload L!"indentation_string = '  '").map (·.str .indentationString) = some (some L!"  ") :=
  ⟨(accepted_iff _).2 (by decide +kernel), by decide +kernel, by decide +kernel⟩

/-- The full claim fails for an assignment of two values: it is not of the form `name = literal`, but the
first option is set (and the second is not). -/
theorem C16_second_value_ignored :
    Accepted L!"max_width, indentation_string = 80, '  '" ∧
    (Config.default.reload L!"max_width, indentation_string = 80, '  '").map (·.num .maxWidth) = some (some 80) ∧
    (Config.default.reload L!"max_width, indentation_string = 80, '  '").map (·.str .indentationString) = some none :=
  ⟨(accepted_iff _).2 (by decide +kernel), by decide +kernel, by decide +kernel⟩

end Luafmt
