import Verif.Props.Program
import Verif.Props.Selection
import Verif.Props.Ranges

/-
C02, C03 with line ranges: programs for which every line range is safe.
-/
namespace Luafmt
open Spec

/-! ### The nodes of the statements -/

mutual
theorem node_bounds : ∀ (n k : Node), n.Nested → k ∈ nodesOf n → n.span.l ≤ k.span.l ∧ k.span.r ≤ n.span.r
  | .mk t s ls ks, k, h, hk => by
    rcases List.mem_cons.mp hk with rfl | hk
    · exact ⟨Nat.le_refl _, Nat.le_refl _⟩
    · exact nodes_bounds ks k h.2 hk
theorem nodes_bounds : ∀ (ns : List Node) (k : Node) {a b : Nat}, Node.NestedAll a b ns → k ∈ nodesOfAll ns →
    a ≤ k.span.l ∧ k.span.r ≤ b
  | [], _, _, _, _, h => nomatch h
  | n :: ns, k, a, b, h, hk => by
    have h3 := h.2.2.le
    have h4 := h.2.1.le
    have h5 := h.1
    rcases List.mem_append.mp hk with hk | hk
    · have := node_bounds n k h.2.1 hk
      omega
    · have := nodes_bounds ns k h.2.2 hk
      omega
end

theorem mem_nodesOfAll_iff {k : Node} : ∀ {ns : List Node}, k ∈ nodesOfAll ns → ∃ n ∈ ns, k ∈ nodesOf n
  | n :: ns, h => by
    rcases List.mem_append.mp h with h | h
    · exact ⟨n, List.mem_cons_self, h⟩
    · obtain ⟨m, h1, h2⟩ := mem_nodesOfAll_iff h
      exact ⟨m, List.mem_cons_of_mem _ h1, h2⟩

theorem mem_nodes_kids {k : Node} : ∀ {n : Node}, k ∈ nodesOf n → k.tag ≠ n.tag → ∃ m ∈ n.kids, k ∈ nodesOf m
  | .mk _ _ _ ks, h, hne => by
    rcases List.mem_cons.mp h with rfl | h
    · exact absurd rfl hne
    · exact mem_nodesOfAll_iff h

theorem list_nodes {k : Node} (hk : k.tag ≠ .statementList) {kids : List Node} (h : k ∈ nodesOfAll kids) :
    ∃ s ∈ listStatements kids, k ∈ nodesOf s := by
  obtain ⟨m, h1, h2⟩ := mem_nodesOfAll_iff h
  unfold listStatements
  by_cases hm : m.tag = .statementList
  · obtain ⟨x, h3, h4⟩ := mem_nodes_kids h2 (hm ▸ hk)
    exact ⟨x, List.mem_flatMap.mpr ⟨m, h1, by simp only [hm]; exact h3⟩, h4⟩
  · refine ⟨m, List.mem_flatMap.mpr ⟨m, h1, ?_⟩, h2⟩
    split
    · next e => exact absurd e hm
    · exact List.mem_cons_self

theorem block_nodes {k n : Node} (h1 : k.tag ≠ .statementList) (h2 : k.tag ≠ .statsRetStat) (h : k ∈ nodesOf n) :
    ∃ s ∈ blockStatements n, k ∈ nodesOf s := by
  unfold blockStatements
  split
  · rcases List.mem_cons.mp h with rfl | h
    · exact absurd rfl h1
    · exact list_nodes h1 h
  · rcases List.mem_cons.mp h with rfl | h
    · exact absurd rfl h2
    · simp only [nodesOfAll, nodesOf, List.append_nil, List.mem_append, List.mem_cons] at h
      rcases h with (rfl | h) | h
      · exact absurd rfl h1
      · obtain ⟨s, h3, h4⟩ := list_nodes h1 h
        exact ⟨s, List.mem_append_left _ h3, h4⟩
      · exact ⟨_, List.mem_append_right _ List.mem_cons_self, h⟩
  · exact ⟨_, List.mem_cons_self, h⟩

theorem program_nodes {src : Str} {tree k : Node} (hp : parseLua src = some tree) (hk : k.tag = .varRoundSuffix)
    (h : k ∈ nodesOf tree) : ∃ s ∈ allStatements tree, k ∈ nodesOf s := by
  have ht := parseLua_laid hp none Config.default
  have e1 : k.tag ≠ .statementList := by rw [hk]; nofun
  have e2 : k.tag ≠ .statsRetStat := by rw [hk]; nofun
  cases ht with
  | empty sp =>
    simp only [nodesOf, nodesOfAll, List.append_nil, List.mem_cons, List.not_mem_nil, or_false] at h
    rcases h with rfl | rfl <;> cases hk
  | line sp ls x a =>
    simp only [nodesOf, nodesOfAll, List.append_nil, List.mem_cons, List.not_mem_nil, or_false] at h
    rcases h with rfl | rfl <;> cases hk
  | block sp n hl hst =>
    simp only [nodesOf, nodesOfAll, List.append_nil, List.mem_cons] at h
    rcases h with rfl | h
    · cases hk
    · obtain ⟨s, h1, h2⟩ := block_nodes e1 e2 h
      refine ⟨s, ?_, h2⟩
      cases n with
      | mk tag _ _ _ => cases tag <;> first | exact h1 | cases hst
  | both sp x a n hl hst ha1 ha2 hx =>
    simp only [nodesOf, nodesOfAll, List.append_nil, List.mem_cons, List.mem_append, List.not_mem_nil, or_false] at h
    rcases h with rfl | rfl | h
    · cases hk
    · cases hk
    · exact block_nodes e1 e2 h

theorem whole_uncut {l r : Nat} {s k : Loc} (hlr : l ≤ r) (h : Whole l r s) (h1 : s.l ≤ k.l) (h2 : k.r ≤ s.r) : Uncut l r k := by
  unfold Whole at h
  unfold Uncut
  omega

theorem effective_le {c : Config} {src : Str} {tree : Node} {l r : Nat} (hp : parseLua src = some tree)
    (he : effectiveRange c src tree = .ok (some (l, r))) : l ≤ r := by
  cases hl : c.lineRange with
  | none =>
    simp only [effectiveRange, hl, lineRangeToPosRange, Res.bind_ok, Res.pure_eq, growRange_none] at he
    cases he
  | some p =>
    obtain ⟨a, b, h1, h2, _⟩ := C10_interval_is_sane src p.1 p.2
    rw [← show c.lineRange = some (p.1, p.2) from hl] at h1
    obtain ⟨l', r', h3, h4, h5⟩ := C11_contains_the_request c src tree hp a b h1
    rw [he] at h3
    cases h3
    omega

mutual
theorem node_nested : ∀ (n k : Node), n.Nested → k ∈ nodesOf n → k.Nested
  | .mk t s ls ks, k, h, hk => by
    rcases List.mem_cons.mp hk with rfl | hk
    · exact h
    · exact nodes_nested ks k h.2 hk
theorem nodes_nested : ∀ (ns : List Node) (k : Node) {a b : Nat}, Node.NestedAll a b ns → k ∈ nodesOfAll ns → k.Nested
  | [], _, _, _, _, h => nomatch h
  | n :: ns, k, a, b, h, hk => by
    rcases List.mem_append.mp hk with hk | hk
    · exact node_nested n k h.2.1 hk
    · exact nodes_nested ns k h.2.2 hk
end

theorem kids_nodes {k m : Node} : ∀ {n : Node}, m ∈ n.kids → k ∈ nodesOf m → k ∈ nodesOf n
  | .mk _ _ _ _, h, h' => List.mem_cons_of_mem _ (mem_nodesOfAll h h')

theorem listStatements_nodes {kids : List Node} {s : Node} (h : s ∈ listStatements kids) : s ∈ nodesOfAll kids := by
  obtain ⟨k, h1, h2⟩ := List.mem_flatMap.mp h
  refine mem_nodesOfAll h1 ?_
  split at h2
  · exact kids_nodes h2 (mem_nodesOf_self _)
  · rw [List.mem_singleton.mp h2]
    exact mem_nodesOf_self _

theorem blockStatements_nodes {n s : Node} (h : s ∈ blockStatements n) : s ∈ nodesOf n := by
  unfold blockStatements at h
  split at h
  · exact List.mem_cons_of_mem _ (listStatements_nodes h)
  · rcases List.mem_append.mp h with h | h
    · exact List.mem_cons_of_mem _ (List.mem_append_left _ (List.mem_cons_of_mem _ (listStatements_nodes h)))
    · rw [List.mem_singleton.mp h]
      exact kids_nodes (m := _) (by simp [Node.kids]) (mem_nodesOf_self _)
  · rw [List.mem_singleton.mp h]
    exact mem_nodesOf_self _

theorem allStatements_nodes {s : Node} : ∀ {tree : Node}, s ∈ allStatements tree → s ∈ nodesOfAll tree.kids
  | tree, h => by
    unfold allStatements at h
    split at h
    · cases h
    · exact List.mem_append_left _ (blockStatements_nodes h)
    · exact List.mem_append_right _ (List.mem_append_left _ (blockStatements_nodes h))
    · cases h

theorem tree_nested {src : Str} {tree s : Node} (hp : parseLua src = some tree) (hs : s ∈ allStatements tree) : s.Nested := by
  obtain ⟨tag, span, locs, kids, rfl, _, hn⟩ := parseLua_nested hp
  exact nodes_nested kids s hn (allStatements_nodes hs)

/-- C11 and C02: if the region that is formatted cuts no top-level statement, then it cuts no call. -/
theorem rangeSafe_of_whole (c : Config) (src : Str) (ha : ∀ ch ∈ src, ch.utf8Size = 1)
    (hn : CommentsEnd src)
    (hw : ∀ tree l r, parseLua src = some tree → effectiveRange c src tree = .ok (some (l, r)) →
      ∀ s ∈ allStatements tree, Whole l r s.span) : RangeSafe c src := by
  refine .inr ⟨ha, hn, fun tree l r hp he n hm ht => ?_⟩
  obtain ⟨s, h1, h2⟩ := program_nodes hp ht hm
  obtain ⟨h3, h4⟩ := node_bounds s n (tree_nested hp h1) h2
  exact whole_uncut (effective_le hp he) (hw tree l r hp he s h1) h3 h4

/-- C11 and C02: for an ASCII program that does not end in a one-line comment and that has neither a `return` statement nor groups at its top level, every
line range is safe. -/
theorem C11_plain_programs_are_safe (c : Config) (src : Str) (tree : Node) (hp : parseLua src = some tree)
    (ha : ∀ ch ∈ src, ch.utf8Size = 1) (hn : CommentsEnd src)
    (hs : ∀ s ∈ allStatements tree, s ∈ plainStatements tree) : RangeSafe c src := by
  refine rangeSafe_of_whole c src ha hn fun tree' l r hp' he s hm => ?_
  cases hp.symm.trans hp'
  exact C11_whole_statements_partial c src tree hp l r he s (hs s hm)

/-- A check that implies the hypothesis about the statements. -/
def plainB : Node → Bool
  | .mk .chunk _ _ [.mk .statementList _ _ kids] | .mk .sheBangChunk _ _ [_, .mk .statementList _ _ kids] =>
    kids.all fun k => match k.tag with
      | .statementList | .fields _ _ _ | .funcNameItems _ => false
      | _ => true
  | _ => false

theorem plain_list {kids : List Node} (h : (kids.all fun k => match k.tag with
      | .statementList | .fields _ _ _ | .funcNameItems _ => false
      | _ => true) = true) : ∀ s ∈ listStatements kids, s ∈ ungrouped kids := by
  intro s hs
  rw [List.all_eq_true] at h
  obtain ⟨k, h1, h2⟩ := List.mem_flatMap.mp hs
  have h3 := h k h1
  split at h2
  · next e => simp [e] at h3
  · rw [List.mem_singleton.mp h2]
    exact List.mem_filter.mpr ⟨h1, h3⟩

theorem plain_of {tree : Node} (h : plainB tree = true) : ∀ s ∈ allStatements tree, s ∈ plainStatements tree := by
  unfold plainB at h
  split at h
  · exact plain_list h
  · exact plain_list h
  · cases h

/-- The hypotheses hold for a program with a shebang line, several statements and calls behind parentheses that span lines. -/
example : ∃ src tree, src = L!"#!lua\na = (f)(x,\n y) --c\nif b then return (g)(1,\n 2) end" ∧ parseLua src = some tree ∧
    (∀ ch ∈ src, ch.utf8Size = 1) ∧ CommentsEnd src ∧ ∀ s ∈ allStatements tree, s ∈ plainStatements tree := by
  have h : (parseLua L!"#!lua\na = (f)(x,\n y) --c\nif b then return (g)(1,\n 2) end").map plainB = some true := by decide +kernel
  obtain ⟨tree, h1, h2⟩ := Option.map_eq_some_iff.mp h
  exact ⟨_, tree, rfl, h1, by decide +kernel, commentsEnd_of (by decide +kernel), plain_of h2⟩

end Luafmt
