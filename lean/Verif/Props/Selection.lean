import Verif.Proofs.Spans
import Verif.Spec.Selection
import Verif.Spec.Options

/-
C11: the range that is formatted consists of whole statements.
-/
namespace Luafmt
open Spec

/-- C11. The region that is formatted contains the requested one. -/
theorem C11_contains_the_request (c : Config) (src : Str) (tree : Node) (hp : parseLua src = some tree) (l r : Nat)
    (hq : lineRangeToPosRange src c.lineRange = .ok (some (l, r))) :
    ∃ l' r', effectiveRange c src tree = .ok (some (l', r')) ∧ l' ≤ l ∧ r ≤ r' := by
  obtain ⟨tag, span, locs, kids, rfl, ht, hk⟩ := parseLua_nested hp
  have e0 : growRange 0 (.mk tag span locs kids) (some (l, r)) = growRangeAll 0 kids (some (l, r)) := by
    rcases ht with rfl | rfl <;> simp [growRange, Tag.updatesRange, updatePosRange, Tag.childLevel]
  obtain ⟨l', r', e, b1, b2, _⟩ := growRangeAll_ok kids 0 l r _ _ hk
  refine ⟨l', r', ?_, b1, b2⟩
  simp only [effectiveRange, hq, Res.bind_ok, Res.pure_eq, e0, e]

theorem ungrouped_updates {kids : List Node} {s : Node} (h : s ∈ ungrouped kids) : s ∈ kids ∧ s.tag.updatesRange = true := by
  obtain ⟨h1, h2⟩ := List.mem_filter.mp h
  refine ⟨h1, ?_⟩
  cases hs : s.tag <;> simp only [hs] at h2 <;> first | rfl | cases h2

theorem growAll_list {kids : List Node} {span : Loc} {locs : List Loc} {l r : Nat} (h : Node.Nested (.mk .statementList span locs kids)) :
    ∃ l' r', growRange 0 (.mk .statementList span locs kids) (some (l, r)) = some (l', r') ∧
      ∀ s ∈ ungrouped kids, Whole l' r' s.span := by
  obtain ⟨l', r', e, hs⟩ := growRangeAll_settled kids l r _ _ h.2
  refine ⟨l', r', by simpa [growRange, Tag.updatesRange, Tag.childLevel] using e, ?_⟩
  intro s hm
  obtain ⟨h1, h2⟩ := ungrouped_updates hm
  exact hs s h1 h2

theorem kid_span_le {kids : List Node} : ∀ {a b : Nat} {s : Node}, Node.NestedAll a b kids → s ∈ kids → s.span.l ≤ s.span.r ∧ s.span.r ≤ b := by
  induction kids with
  | nil => intro a b s _ h; cases h
  | cons n ns ih =>
    intro a b s h hm
    rcases List.mem_cons.mp hm with rfl | hm
    · exact ⟨h.2.1.le, h.2.2.le⟩
    · exact ih h.2.2 hm

theorem growAll_stats {kids : List Node} {span sp : Loc} {locs lc : List Loc} {ret : Node} {l r : Nat}
    (h : Node.Nested (.mk .statsRetStat sp lc [.mk .statementList span locs kids, ret])) :
    ∃ l' r', growRange 0 (.mk .statsRetStat sp lc [.mk .statementList span locs kids, ret]) (some (l, r)) = some (l', r') ∧
      ∀ s ∈ ungrouped kids, Whole l' r' s.span := by
  obtain ⟨_, h1, h2, h3, h4, h5⟩ := h
  obtain ⟨l1, r1, e1, hs⟩ := growAll_list (l := l) (r := r) h2
  have hg := growRange_ok ret 0 l1 r1 h4
  obtain ⟨l2, r2, e2, _⟩ := id hg
  refine ⟨l2, r2, ?_, ?_⟩
  · simp only [growRange, Tag.updatesRange, updatePosRange, growRangeAll, Tag.childLevel] at e1 ⊢
    simp only [if_true] at e1 ⊢
    simp at e1 ⊢
    rw [e1, e2]
  · intro s hm
    obtain ⟨k1, k2⟩ := kid_span_le h2.2 (ungrouped_updates hm).1
    obtain ⟨l3, r3, e3, h⟩ := Settled.later (hs s hm) k1 (Nat.le_trans k2 h3) hg
    rw [e2] at e3
    cases e3
    exact h

/-- C11, for the top-level statements that are neither `return` statements nor in a group: each of them is either
entirely inside or entirely outside of the region that is formatted. -/
theorem C11_whole_statements_partial (c : Config) (src : Str) (tree : Node) (hp : parseLua src = some tree) (l r : Nat)
    (he : effectiveRange c src tree = .ok (some (l, r))) (s : Node) (hs : s ∈ plainStatements tree) :
    Whole l r s.span := by
  obtain ⟨tag, span, locs, kids, rfl, ht, hk⟩ := parseLua_nested hp
  cases hq : lineRangeToPosRange src c.lineRange with
  | err => simp [effectiveRange, hq] at he
  | panic => simp [effectiveRange, hq] at he
  | ok pr =>
    simp only [effectiveRange, hq, Res.bind_ok, Res.pure_eq, Res.ok.injEq] at he
    have e0 : growRange 0 (.mk tag span locs kids) pr = growRangeAll 0 kids pr := by
      rcases ht with rfl | rfl <;> simp [growRange, Tag.updatesRange, updatePosRange, Tag.childLevel]
    rw [e0] at he
    cases pr with
    | none => rw [growRangeAll_none] at he; cases he
    | some p =>
      obtain ⟨a, b⟩ := p
      unfold plainStatements at hs
      split at hs
      · next e =>
        cases e
        obtain ⟨l', r', e, h⟩ := growAll_list (l := a) (r := b) hk.2.1
        simp only [growRangeAll, e] at he
        cases he
        exact h s hs
      · next e =>
        cases e
        obtain ⟨l', r', e, h⟩ := growAll_stats (l := a) (r := b) hk.2.1
        simp only [growRangeAll, e] at he
        cases he
        exact h s hs
      · next e =>
        cases e
        obtain ⟨a1, b1, e1, _⟩ := growRange_ok _ 0 a b hk.2.1
        obtain ⟨l', r', e, h⟩ := growAll_list (l := a1) (r := b1) hk.2.2.2.1
        simp only [growRangeAll, e1, e] at he
        cases he
        exact h s hs
      · next e =>
        cases e
        obtain ⟨a1, b1, e1, _⟩ := growRange_ok _ 0 a b hk.2.1
        obtain ⟨l', r', e, h⟩ := growAll_stats (l := a1) (r := b1) hk.2.2.2.1
        simp only [growRangeAll, e1, e] at he
        cases he
        exact h s hs
      · cases hs

/-- A range of lines. -/
def Spec.linesCfg (a b : Nat) : Config := { Config.default with lineRange := some (a, b) }

/-- The hypotheses are met, and the request grows: line 2 is the second line of the first statement. -/
example : ∃ tree s, parseLua L!"f(1,\n 2)\ng()\n" = some tree ∧ plainStatements tree = s ∧ s.length = 2 ∧
    lineRangeToPosRange L!"f(1,\n 2)\ng()\n" (linesCfg 2 2).lineRange = .ok (some (4, 8)) ∧
    effectiveRange (linesCfg 2 2) L!"f(1,\n 2)\ng()\n" tree = .ok (some (0, 8)) :=
  ⟨_, _, rfl, rfl, by decide +kernel⟩

/-- C11 is false for `return` statements: lines 1 and 2 are selected, the statement spans lines 2 and 3, and the region
ends inside it. -/
theorem C11_return_is_cut :
    ∃ tree s, parseLua L!"f()\nreturn 1,\n 2\n" = some tree ∧ allStatements tree = s ∧
      effectiveRange (linesCfg 1 2) L!"f()\nreturn 1,\n 2\n" tree = .ok (some (0, 13)) ∧
      s.map Node.span = [⟨0, 3⟩, ⟨4, 16⟩] ∧ ¬ ∀ x ∈ s.map Node.span, Whole 0 13 x :=
  ⟨_, _, rfl, rfl, by decide +kernel⟩

/-- C11 is false for a statement that the grammar groups with the next one. -/
theorem C11_group_is_cut :
    ∃ tree s, parseLua L!"do\nend\n(f)(x)\n" = some tree ∧ allStatements tree = s ∧
      effectiveRange (linesCfg 1 1) L!"do\nend\n(f)(x)\n" tree = .ok (some (0, 2)) ∧
      s.map Node.span = [⟨0, 6⟩, ⟨7, 13⟩] ∧ ¬ ∀ x ∈ s.map Node.span, Whole 0 2 x :=
  ⟨_, _, rfl, rfl, by decide +kernel⟩

end Luafmt
