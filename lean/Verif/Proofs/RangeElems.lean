import Verif.Spec.RangeSafe
import Verif.Proofs.OutElems
import Verif.Proofs.Laid

/-
The output of a formatting run with a line range, next to the source.
-/
namespace Luafmt
open Spec

variable {c : Config}

theorem mem_nodesOf_self : ∀ (n : Node), n ∈ nodesOf n
  | .mk _ _ _ _ => List.mem_cons_self

theorem mem_nodesOfAll {n k : Node} : ∀ {ns : List Node}, n ∈ ns → k ∈ nodesOf n → k ∈ nodesOfAll ns
  | m :: ns, h, hk => by
    rcases List.mem_cons.mp h with rfl | h
    · exact List.mem_append_left _ hk
    · exact List.mem_append_right _ (mem_nodesOfAll h hk)

theorem uncut_contained {l r : Nat} {s : Loc} (h : Uncut l r s) : notContained (some (l, r)) s = false := by
  unfold notContained
  simp only [Bool.or_eq_false_iff, Bool.and_eq_false_iff, decide_eq_false_iff_not]
  obtain ⟨h1, h2⟩ := h
  omega

mutual
theorem proper_of_laid {env : Env} : ∀ (n : Node), n.Laid env c →
    (∀ k ∈ nodesOf n, k.tag = .varRoundSuffix → notContained env.posRange k.span = false) → n.Proper env c
  | .mk tag span locs kids, h, hv => by
    refine ⟨fun _ => ⟨fun _ _ => ?_, fun ht => hv _ List.mem_cons_self ht⟩,
      properAll_of_laid kids h.2.2.2.2 fun k hk => hv k (List.mem_cons_of_mem _ hk)⟩
    rw [h.2.1]
    exact substr_cut (Nat.le_of_lt h.1.1) h.1.2.1
theorem properAll_of_laid {env : Env} : ∀ (ns : List Node), Node.LaidAll env c ns →
    (∀ k ∈ nodesOfAll ns, k.tag = .varRoundSuffix → notContained env.posRange k.span = false) → Node.ProperAll env c ns
  | [], _, _ => trivial
  | n :: ns, h, hv => ⟨proper_of_laid n h.1 fun k hk => hv k (List.mem_append_left _ hk),
      properAll_of_laid ns h.2 fun k hk => hv k (List.mem_append_right _ hk)⟩
end

theorem proper_leaf {env : Env} {tag : Tag} {span : Loc} (h : tag.leafText ≠ none) (hv : tag ≠ .varRoundSuffix) :
    Node.Proper env c (.mk tag span [] []) :=
  ⟨fun _ => ⟨fun _ h' => absurd h' h, fun e => absurd e hv⟩, trivial⟩

theorem proper_top {env : Env} {tag : Tag} {span : Loc} {locs : List Loc} {kids : List Node} (h : tag.checksRange = false)
    (hv : tag ≠ .varRoundSuffix) (hk : Node.ProperAll env c kids) : Node.Proper env c (.mk tag span locs kids) :=
  ⟨fun _ => ⟨fun h' _ => (by rw [h] at h'; cases h'), fun e => absurd e hv⟩, hk⟩

theorem parseLua_proper {src : Str} {tree : Node} (hp : parseLua src = some tree) {pr : Option (Nat × Nat)}
    (hv : ∀ k ∈ nodesOf tree, k.tag = .varRoundSuffix → notContained pr k.span = false) : tree.Proper ⟨src, pr⟩ c := by
  have ht := parseLua_laid hp pr c
  cases ht with
  | empty sp =>
    refine proper_top rfl (nofun) ⟨⟨fun _ => ⟨fun _ _ => ?_, nofun⟩, trivial⟩, trivial⟩
    have := substr_cut (s := src) (Nat.le_refl src.length) (Nat.le_refl _)
    rw [slice_same] at this
    exact this
  | line sp ls x a => exact proper_top rfl (nofun) ⟨proper_leaf (nofun) (nofun), trivial⟩
  | block sp n hl hst =>
    exact proper_top rfl (nofun) ⟨proper_of_laid n hl fun k hk => hv k (List.mem_cons_of_mem _ (List.mem_append_left _ hk)), trivial⟩
  | both sp x a n hl hst ha1 ha2 hx =>
    exact proper_top rfl (nofun) ⟨proper_leaf (nofun) (nofun), proper_of_laid n hl fun k hk =>
      hv k (List.mem_cons_of_mem _ (mem_nodesOfAll (by simp) hk)), trivial⟩

/-- A formatting run whose line range (if there is one) forgets nothing. -/
theorem format_safe {src out : Str} (hs : RangeSafe c src) (h : format c src = .ok out) :
    ∃ tree pr, parseLua src = some tree ∧ SourceOk c src pr ∧ Emits False ⟨src, pr⟩ c (tree.items c) [] out := by
  rcases hs with hl | ⟨h1, h2, h3⟩
  · obtain ⟨tree, hp, hE⟩ := format_ok hl h
    exact ⟨tree, none, hp, .inl ⟨rfl, hl⟩, hE⟩
  · by_cases hl : c.lineRange = none
    · obtain ⟨tree, hp, hE⟩ := format_ok hl h
      exact ⟨tree, none, hp, .inl ⟨rfl, hl⟩, hE⟩
    unfold format at h
    split at h
    · cases h
    · next tree ht =>
      have hf : formatTree c src tree = .ok out := by
        split at h <;> cases h
        assumption
      simp only [formatTree, Res.bind_eq_ok] at hf
      obtain ⟨pr, hp, hw⟩ := hf
      refine ⟨tree, pr, ht, .inr ⟨hl, h2, h1⟩, writeTree_ok (parseLua_proper ht fun k hk ht' => ?_) hw⟩
      cases pr with
      | none => rfl
      | some p =>
        obtain ⟨l, r⟩ := p
        exact uncut_contained (h3 tree l r ht hp k hk ht')

/-- What formatting does to the elements of a program. -/
theorem format_elems (hh : BlankHints c) {src out : Str} (hs : RangeSafe c src) (h : format c src = .ok out) :
    ∃ tree toks e os es es', parseLua src = some tree ∧ lexLua src = some (toks ++ [e]) ∧ e.tok = .eof ∧
      Outs c (Marked c [] out) (toks ++ [e]) (tree.items c) [e] os ∧ os.map (·.tok) = tokensOf es' ∧
      toks.map (·.tok) = tokensOf es ∧
      (Clean src → ElementsOf src es) ∧ Rewrites c es es' ∧ Text es' out ∧
      (KeepsApart c (tokensOf es) → Read 0 es' os out) := by
  obtain ⟨tree, pr, hp, hr, hE⟩ := format_safe hs h
  obtain ⟨toks, e, os, es, es', h1, h2, h3, h4, h5, h6, h7, h8, h9, _⟩ := tree_elems hh hr hp (hE.loose none)
  exact ⟨tree, toks, e, os, es, es', hp, h1, h2, h3, h4, h5, h6, h7, h8, h9⟩

end Luafmt
