import Verif.Spec.RangeSafe
import Verif.Proofs.SepsAll
import Verif.Proofs.TailsAll
import Verif.Proofs.EmitAll
import Verif.Proofs.TileAll
import Verif.Proofs.LexProps

/-
The output of a formatting run, next to the source.
-/
namespace Luafmt
open Spec

variable {c : Config} {NL : Prop}

/-! ### The hints of a tree -/

/-- The hints that the printer uses. -/
def PlainHint (c : Config) (h : Str) : Prop := h = [] ∨ h = [' '] ∨ h = tableHint c

def Item.plain (c : Config) : Item → Prop
  | .gap _ h => PlainHint c h
  | .extra h => PlainHint c h
  | _ => True

def Slot.plain (c : Config) : Slot → Prop
  | .gap _ h => PlainHint c h
  | .extra h => PlainHint c h
  | _ => True

instance (c : Config) (h : Str) : Decidable (PlainHint c h) := inferInstanceAs (Decidable (_ ∨ _))

instance (c : Config) (s : Slot) : Decidable (s.plain c) := by
  cases s <;> simp only [Slot.plain] <;> infer_instance

theorem frame_plain_default (t : Tag) {fr : List Slot} (h : frame Config.default t = some fr) :
    ∀ s ∈ fr, s.plain Config.default := by
  cases t <;> first
    | (cases h; done)
    | (cases h; decide)
    | (cases h
       intro s hs
       revert hs s
       simp [Fm.slots, El.slots, Slot.plain, PlainHint])

theorem frame_plain {t : Tag} {fr : List Slot} (h : frame c t = some fr) : ∀ s ∈ fr, s.plain c := by
  rcases frame_default c t with e | e | e
  · rw [e] at h
    intro s hs
    have := frame_plain_default t h s hs
    cases s with
    | lit | kid => trivial
    | gap i x | extra x =>
      rcases this with r | r | r
      · exact .inl r
      · exact .inr (.inl r)
      · exact .inl r
  · rw [e] at h; cases h
    intro s hs
    simp only [List.mem_cons, List.not_mem_nil, or_false] at hs
    rcases hs with rfl | rfl | rfl | rfl | rfl | rfl <;> first | trivial | exact .inr (.inr rfl)
  · rw [e] at h; cases h
    intro s hs
    simp only [List.mem_cons, List.not_mem_nil, or_false] at hs
    rcases hs with rfl | rfl | rfl <;> first | trivial | exact .inr (.inr rfl)

theorem elementHint_plain (t : Tag) : PlainHint c (elementHint t) := by
  unfold elementHint; split
  all_goals first | exact .inl rfl | exact .inr (.inl rfl)

theorem itemHint_plain (t : Tag) : PlainHint c (itemHint t) := by
  unfold itemHint; split
  all_goals first | exact .inl rfl | exact .inr (.inl rfl)

theorem sepIs_plain {tag : Tag} : ∀ {h : Str} {ls : List Loc} {ks : List (List Item)} {ss : List Str},
    PlainHint c h → (∀ k ∈ ks, ∀ i ∈ k, i.plain c) → ∀ i ∈ sepIs c tag h ls ks ss, i.plain c
  | h, pre :: post :: ls, k :: ks, s :: ss, hh, hk => by
    intro i hi
    have ih := sepIs_plain (tag := tag) (h := elementHint tag) (ls := ls) (ks := ks) (ss := ss)
      (elementHint_plain tag) (fun k h => hk k (by simp [h]))
    simp only [sepIs, List.mem_cons, List.mem_append] at hi
    rcases hi with rfl | hi | rfl | hi
    · exact hh
    · exact hk k (by simp) i hi
    · exact .inl rfl
    · split at hi
      · simp only [List.mem_cons, List.not_mem_nil, or_false] at hi
        subst hi; trivial
      · rcases List.mem_cons.mp hi with rfl | hi
        · trivial
        · exact ih i hi
  | _, [], _, _, _, _ => by simp [sepIs]
  | _, [_], _, _, _, _ => by simp [sepIs]
  | _, _ :: _ :: _, [], _, _, _ => by simp [sepIs]
  | _, _ :: _ :: _, _ :: _, [], _, _ => by simp [sepIs]

theorem plainIs_plain : ∀ {ls : List Loc} {ks : List (Tag × List Item)},
    (∀ k ∈ ks, ∀ i ∈ k.2, i.plain c) → ∀ i ∈ plainIs ls ks, i.plain c
  | l :: ls, (t, k) :: ks, hk => by
    intro i hi
    simp only [plainIs, List.mem_cons, List.mem_append] at hi
    rcases hi with rfl | hi | hi
    · exact itemHint_plain t
    · exact hk (t, k) (by simp) i hi
    · exact plainIs_plain (fun k h => hk k (by simp [h])) i hi
  | [], _, _ => by simp [plainIs]
  | _ :: _, [], _ => by simp [plainIs]

theorem plainIs0_plain : ∀ {ls : List Loc} {ks : List (Tag × List Item)},
    (∀ k ∈ ks, ∀ i ∈ k.2, i.plain c) → ∀ i ∈ plainIs0 ls ks, i.plain c
  | l :: ls, (t, k) :: ks, hk => by
    intro i hi
    simp only [plainIs0, List.mem_cons, List.mem_append] at hi
    rcases hi with rfl | hi | hi
    · exact .inl rfl
    · exact hk (t, k) (by simp) i hi
    · exact plainIs_plain (fun k h => hk k (by simp [h])) i hi
  | [], _, _ => by simp [plainIs0]
  | _ :: _, [], _ => by simp [plainIs0]

theorem itemsOf_plain {tag : Tag} {locs : List Loc} {tags : List Tag} {ks : List (List Item)}
    (hk : ∀ k ∈ ks, ∀ i ∈ k, i.plain c) : ∀ i ∈ itemsOf c tag locs tags ks, i.plain c := by
  unfold itemsOf
  split
  · intro i hi
    simp only [List.mem_cons, List.not_mem_nil, or_false] at hi
    subst hi; trivial
  · split
    · next fr hfr =>
      intro i hi
      obtain ⟨s, hs, hi⟩ := List.mem_flatMap.mp hi
      have hp := frame_plain hfr s hs
      cases s with
      | lit x =>
        simp only [slotItems, List.mem_cons, List.not_mem_nil, or_false] at hi
        subst hi; trivial
      | gap j x =>
        simp only [slotItems, List.mem_cons, List.not_mem_nil, or_false] at hi
        subst hi; exact hp
      | extra x =>
        simp only [slotItems, List.mem_cons, List.not_mem_nil, or_false] at hi
        subst hi; exact hp
      | kid j =>
        simp only [slotItems] at hi
        cases hj : ks[j]? with
        | none => rw [hj] at hi; simp at hi
        | some k =>
          rw [hj] at hi
          exact hk k (List.mem_of_getElem? hj) i hi
    · split
      · exact sepIs_plain (.inl rfl) hk
      · split
        · refine plainIs0_plain fun k h => ?_
          exact hk k.2 (List.of_mem_zip (a := k.1) (b := k.2) h).2
        · simp

mutual
theorem items_plain (c : Config) : ∀ n : Node, ∀ i ∈ n.items c, i.plain c
  | .mk tag span locs kids => by
    simp only [Node.items]
    exact itemsOf_plain (itemsAll_plain c kids)
theorem itemsAll_plain (c : Config) : ∀ ns : List Node, ∀ k ∈ Node.itemsAll c ns, ∀ i ∈ k, i.plain c
  | [] => by simp [Node.itemsAll]
  | n :: ns => by
    intro k hk
    simp only [Node.itemsAll, List.mem_cons] at hk
    rcases hk with rfl | hk
    · exact items_plain c n
    · exact itemsAll_plain c ns k hk
end

theorem plainHint_ok (hh : BlankHints c) (ha : ∀ o ∈ hintOptions, ∀ s, c.str o = some s → '\n' ∈ s → NL) {h : Str} (hp : PlainHint c h) : HintOk NL h := by
  rcases hp with rfl | rfl | rfl
  · exact .nil
  · refine ⟨?_, fun h => absurd h (by decide)⟩
    intro ch hc
    simp only [List.mem_cons, List.not_mem_nil, or_false] at hc
    exact .inl hc
  · unfold tableHint
    cases h : c.str .hintTableConstructor with
    | none => exact .nil
    | some s => exact ⟨hh.hints _ (by decide) s h, ha _ (by decide) s h⟩

theorem items_hintOk (hh : BlankHints c) (ha : ∀ o ∈ hintOptions, ∀ s, c.str o = some s → '\n' ∈ s → NL) (n : Node) : ∀ i ∈ n.items c, i.hintOk NL := by
  intro i hi
  have := items_plain c n i hi
  cases i with
  | gap _ h => exact plainHint_ok hh ha this
  | extra h => exact plainHint_ok hh ha this
  | lit | trail => trivial

/-! ### The output renders the source -/

theorem reads_solid {t : Token} {n : Option Char} (h : Reads t n) : Solid (spell t) := by
  obtain ⟨c, h1, h2, h3, _⟩ := reads_last h
  refine ⟨?_, ?_, ?_⟩
  · intro e; rw [e] at h1; cases h1
  · rw [h1]; intro e; cases e; exact h2 rfl
  · rw [h1]; intro e; cases e; exact h3 rfl

mutual
theorem growRange_none : ∀ (n : Node) (l : Nat), growRange l n none = none
  | .mk tag span locs kids, l => by
    simp only [growRange, updatePosRange]
    have : (if l = 1 then (none : Option (Nat × Nat)) else none) = none := by split <;> rfl
    split
    · rw [this]; exact growRangeAll_none kids _
    · exact growRangeAll_none kids _
theorem growRangeAll_none : ∀ (ns : List Node) (l : Nat), growRangeAll l ns none = none
  | [], _ => rfl
  | n :: ns, l => by simp only [growRangeAll, growRange_none n l, growRangeAll_none ns l]
end

theorem tilesR_tiles : ∀ {ts : List TokL} {s : Str} {a : Nat}, TilesR s a ts → Tiles s a ts
  | [], _, _, h => h
  | t :: ts, s, a, h => by
    rcases h with h | ⟨g, u, s', h1, h2, h3, h4, h5, h6, h7, h8⟩
    · exact .inl h
    · refine .inr ⟨g, u, s', h1, h2, h3, h4, h5, h6, ?_, tilesR_tiles h8⟩
      rcases h7 with h7 | ⟨x, h7, h9, h10, _⟩
      · exact .inl h7.1
      · exact .inr ⟨x, h7, h9, h10⟩

theorem tiles_end : ∀ {ts : List TokL} {e : TokL} {s : Str} {a : Nat}, e.tok = .eof → Tiles s a (ts ++ [e]) →
    e.l = a + s.length
  | [], e, s, a, he, h => by
    rcases h with ⟨_, _, _, h, _⟩ | ⟨_, _, _, h, _⟩
    · exact h
    · exact absurd he h
  | t :: ts, e, s, a, he, h => by
    rcases h with ⟨_, h, _⟩ | ⟨g, u, s', _, rfl, _, h3, h4, _, _, h7⟩
    · simp at h
    · have := tiles_end he h7
      simp only [List.length_append]
      omega

/-- What formatting without a range does. -/
theorem format_ok {src out : Str} (hl : c.lineRange = none) (h : format c src = .ok out) :
    ∃ tree, parseLua src = some tree ∧ Emits False ⟨src, none⟩ c (tree.items c) [] out := by
  unfold format at h
  split at h
  · cases h
  · next tree ht =>
    refine ⟨tree, ht, ?_⟩
    have hf : formatTree c src tree = .ok out := by
      split at h <;> cases h
      assumption
    simp only [formatTree, effectiveRange, hl, Res.bind_eq_ok, Res.pure_eq] at hf
    obtain ⟨pr, ⟨pr0, h1, h2⟩, h3⟩ := hf
    simp only [lineRangeToPosRange] at h1
    cases h1
    cases h2
    rw [growRange_none] at h3
    exact writeTree_ok (proper_of_none c rfl tree) h3

/-- A text that is printed for the items of a tree renders the source. -/
theorem tree_render {W : Prop} (hh : BlankHints c) (ha : Allow c NL) {src out : Str} {tree : Node} {ms : List (Nat × Mk)}
    {pr : Option (Nat × Nat)} (hr : pr = none ∨ Ranged c NL ⟨src, pr⟩)
    (hG : Ranged c NL ⟨src, pr⟩ → ∀ d k, src = d ++ k → FinalGap k → Gap k)
    (hp : parseLua src = some tree) (hE : LEmits W ⟨src, pr⟩ c none (tree.items c) ms [] out) :
    ∃ toks e os, lexLua src = some (toks ++ [e]) ∧ e.tok = .eof ∧
      Outs c (Marked c ms out) (toks ++ [e]) (tree.items c) [e] os ∧ Spaced W c none 0 ' ' os out ∧
      Render c NL src.length 0 false none ' ' [] [] (toks ++ [e]) os src out := by
  obtain ⟨toks, e, h1, h2, h3⟩ := parseLua_tile c hp
  have hT := lexFrom_tilesR 0 src _ h1
  have hend := tiles_end h2 (tilesR_tiles hT)
  rw [Nat.zero_add] at hend
  obtain ⟨R, os, e1, _, e3, e0, e2⟩ := render_of_emits (P := []) (g := []) (T := false) (NL := NL) (B := false) (pv := none) (pre := [])
    (esG := []) (esG' := []) (sg := []) hh ha (env := ⟨src, pr⟩) hr hG (h3 hend) rfl rfl hT
    ⟨e, rfl, h2, rfl⟩
    (fun t ht hne => by
      rcases lexFrom_tokOk 0 src _ h1 t ht with h | ⟨n, h⟩
      · exact absurd h hne
      · exact reads_solid h)
    (fun i hi => ⟨items_hintOk hh ha.hint tree i hi, fun hc => items_hintOk hh (fun o ho s hs h => hc.hint o ho s hs h) tree i hi⟩) (parseLua_seps c hp h1) .nil (fun _ => .inl rfl) (.inr (by simp)) .nil hE (.inl rfl)
    (pw := none) (H := []) (fun _ => parseLua_spaces c hp h1) .nil (fun h => absurd rfl h) .nil
    (fun _ => parseLua_tails c hp h1) .nil
  rw [List.nil_append] at e1
  subst e1
  exact ⟨toks, e, os, h1, h2, e0, e3, e2⟩

/-- What is asked of the source if there is a range: it does not end in a one-line comment, and all its characters are ASCII. -/
def SourceOk (c : Config) (src : Str) (pr : Option (Nat × Nat)) : Prop :=
  pr = none ∧ c.lineRange = none ∨ c.lineRange ≠ none ∧ CommentsEnd src ∧ ∀ ch ∈ src, ch.utf8Size = 1

theorem SourceOk.ranged {src : Str} {pr : Option (Nat × Nat)} (h : SourceOk c src pr) (hn : NL) :
    pr = none ∨ Ranged c NL ⟨src, pr⟩ := by
  rcases h with h | ⟨h1, _, h2⟩
  · exact .inl h.1
  · exact .inr ⟨h1, hn, h2⟩

theorem SourceOk.gap {src : Str} {pr : Option (Nat × Nat)} (h : SourceOk c src pr) (hR : Ranged c NL ⟨src, pr⟩) :
    ∀ d k, src = d ++ k → FinalGap k → Gap k := by
  intro d k hd hk
  rcases hk with hk | ⟨a, t, rfl, ha, ht⟩
  · exact hk
  · rcases h with h | ⟨_, h, _⟩
    · exact absurd h.2 hR.line
    · exact absurd (h (d ++ a) t (by rw [hd, List.append_assoc])) ht.1

/-- The output of a formatting run without a range renders the source. -/
theorem format_render (hh : BlankHints c) (ha : Allow c NL) {src out : Str} (hl : c.lineRange = none)
    (h : format c src = .ok out) :
    ∃ tree toks e os, parseLua src = some tree ∧ lexLua src = some (toks ++ [e]) ∧ e.tok = .eof ∧
      Outs c (Marked c [] out) (toks ++ [e]) (tree.items c) [e] os ∧
      Render c NL src.length 0 false none ' ' [] [] (toks ++ [e]) os src out := by
  obtain ⟨tree, hp, hE⟩ := format_ok hl h
  obtain ⟨toks, e, os, h1, h2, h3, _, h4⟩ := tree_render hh ha (.inl rfl) (fun h _ _ _ _ => absurd hl h.line) hp (hE.loose none)
  exact ⟨tree, toks, e, os, hp, h1, h2, h3, h4⟩

end Luafmt
