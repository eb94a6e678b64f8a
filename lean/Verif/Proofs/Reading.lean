import Verif.Spec.Syntax
import Verif.Proofs.Output

/-
The items of a tree are its reading, and the reading of a parsed tree covers the source.
-/
namespace Luafmt
open Spec

/-- The piece of the source that an item stands for. -/
def Item.pieces : Item → List Piece
  | .lit src _ => wordPiece src
  | .gap loc _ => [.gap loc.l loc.r]
  | .extra _ => []
  | .trail _ src _ => wordPiece src

def shPieces (locs : List Loc) (ks : List (List Piece)) : Sh → List Piece
  | .lit s => wordPiece s
  | .gap i => gapPiece locs i
  | .kid i => ks[i]?.getD []

def partsSh : Nat → Nat → List (Option Str) → List Sh
  | _, _, [] => []
  | i, k, some s :: ps => (if s = [] then [] else [.lit s]) ++ (if ps = [] then [] else [.gap i]) ++ partsSh (i + 1) k ps
  | i, k, none :: ps => .kid k :: ((if ps = [] then [] else [.gap i]) ++ partsSh (i + 1) (k + 1) ps)

theorem partsSh_pieces (locs : List Loc) (ks : List (List Piece)) : ∀ (ps : List (Option Str)) (i k : Nat),
    (partsSh i k ps).flatMap (shPieces locs ks) = fixedPieces locs ks i k ps
  | [], _, _ => rfl
  | some s :: ps, i, k => by
    simp only [partsSh, fixedPieces, List.flatMap_append, partsSh_pieces locs ks ps]
    congr 1
    by_cases h : s = [] <;> by_cases h' : ps = [] <;> simp [h, h', wordPiece, shPieces]
  | none :: ps, i, k => by
    simp only [partsSh, fixedPieces, List.flatMap_append, List.flatMap_cons, partsSh_pieces locs ks ps, List.append_assoc]
    congr 2
    by_cases h' : ps = [] <;> simp [h', shPieces]

theorem frame_layout (c : Config) (t : Tag) (hl : t.leafText = none) (ho : t ≠ .binaryOp [] ∧ t ≠ .unaryOp []) :
    (frame c t).map (·.filterMap Slot.skel) = (layout t).map (partsSh 0 0) := by
  cases t with
  | binaryOp op =>
    have : op ≠ [] := fun e => ho.1 (by rw [e])
    simp [frame, layout, partsSh, Spec.w, Spec.sub, this, Slot.skel]
  | unaryOp op =>
    have : op ≠ [] := fun e => ho.2 (by rw [e])
    simp [frame, layout, partsSh, Spec.w, Spec.sub, this, Slot.skel, Tag.template, Fm.slots, El.slots]
  | _ => first | rfl | (cases hl)

theorem slots_pieces (locs : List Loc) (ks : List (List Item)) (S : List Slot) :
    (S.flatMap (slotItems locs ks)).flatMap Item.pieces =
      (S.filterMap Slot.skel).flatMap (shPieces locs (ks.map (·.flatMap Item.pieces))) := by
  induction S with
  | nil => rfl
  | cons s S ih =>
    rw [List.flatMap_cons, List.flatMap_append, ih]
    cases s with
    | lit s => simp [slotItems, Slot.skel, shPieces, Item.pieces]
    | gap i h => simp [slotItems, Slot.skel, shPieces, Item.pieces, gapPiece, locAt]
    | kid i =>
      simp only [slotItems, Slot.skel, List.filterMap_cons, List.flatMap_cons, shPieces, List.getElem?_map]
      cases ks[i]? <;> rfl
    | extra h => simp [slotItems, Item.pieces]; rfl

theorem leafText_token (t : Tag) : t.leafText = (leafToken t).map spell := by
  cases t <;> simp [Tag.leafText, leafToken, spell, opener, closer]

theorem seps_separators (t : Tag) : t.seps = separators t := by cases t <;> rfl

theorem sepIs_pieces (c : Config) (tag : Tag) : ∀ (ls : List Loc) (ks : List (List Item)) (ss : List Str) (h : Str),
    (sepIs c tag h ls ks ss).flatMap Item.pieces = sepPieces ls (ks.map (·.flatMap Item.pieces)) ss
  | pre :: post :: ls, k :: ks, s :: ss, h => by
    have ih := sepIs_pieces c tag ls ks ss (elementHint tag)
    simp only [sepIs, List.map_cons, sepPieces, ← ih]
    cases hr : sepIs c tag (elementHint tag) ls ks ss with
    | nil => simp [Item.pieces]
    | cons x xs => simp [Item.pieces]
  | [], _, _, _ => by simp [sepIs, sepPieces]
  | [_], _, _, _ => by simp [sepIs, sepPieces]
  | _ :: _ :: _, [], _, _ => by simp [sepIs, sepPieces]
  | _ :: _ :: _, _ :: _, [], _ => by simp [sepIs, sepPieces]

theorem plainIs_pieces : ∀ (ls : List Loc) (ts : List Tag) (ks : List (List Item)), ts.length = ks.length →
    (plainIs ls (ts.zip ks)).flatMap Item.pieces = listPieces ls (ks.map (·.flatMap Item.pieces))
  | [], ts, ks, _ => by simp [plainIs, listPieces]
  | _ :: _, [], [], _ => by simp [plainIs, listPieces]
  | l :: ls, t :: ts, k :: ks, h => by
    have ih := plainIs_pieces ls ts ks (by simpa using h)
    simp [plainIs, listPieces, Item.pieces, ih]

theorem plainIs0_pieces : ∀ (ls : List Loc) (ts : List Tag) (ks : List (List Item)), ts.length = ks.length →
    (plainIs0 ls (ts.zip ks)).flatMap Item.pieces = listPieces ls (ks.map (·.flatMap Item.pieces))
  | [], ts, ks, _ => by simp [plainIs0, listPieces]
  | _ :: _, [], [], _ => by simp [plainIs0, listPieces]
  | l :: ls, t :: ts, k :: ks, h => by
    have ih := plainIs_pieces ls ts ks (by simpa using h)
    simp [plainIs0, listPieces, Item.pieces, ih]

theorem no_frame {t : Tag} (hl : t.leafText = none) (hf : layout t = none) (hs : separators t = none) :
    t.isPlainList = true := by
  cases t <;> first | rfl | (cases hl; done) | (cases hf; done) | (cases hs; done)

theorem frame_pieces (c : Config) (t : Tag) (hl : t.leafText = none) (locs : List Loc) (ks : List (List Piece)) :
    (frame c t).map (fun S => (S.filterMap Slot.skel).flatMap (shPieces locs ks)) =
      (layout t).map (fixedPieces locs ks 0 0) := by
  by_cases h1 : t = .binaryOp []
  · subst h1
    simp [frame, layout, fixedPieces, Spec.w, Spec.sub, Slot.skel, shPieces]
  by_cases h2 : t = .unaryOp []
  · subst h2
    simp [frame, layout, fixedPieces, Spec.w, Spec.sub, Slot.skel, shPieces, Tag.template, Fm.slots, El.slots]
  have := congrArg (Option.map (·.flatMap (shPieces locs ks))) (frame_layout c t hl ⟨h1, h2⟩)
  simp only [Option.map_map] at this
  rw [show ((fun S : List Slot => (S.filterMap Slot.skel).flatMap (shPieces locs ks))) =
    ((fun x : List Sh => x.flatMap (shPieces locs ks)) ∘ fun x => x.filterMap Slot.skel) from rfl, this]
  congr 1
  funext ps
  exact partsSh_pieces locs ks ps 0 0

mutual
theorem items_reading (c : Config) : ∀ n : Node, (n.items c).flatMap Item.pieces = reading n
  | .mk tag span locs kids => by
    have ih := itemsAll_reading c kids
    rw [Node.items, reading, itemsOf, piecesOf]
    have hlt := leafText_token tag
    cases hl : leafToken tag with
    | some t =>
      rw [hl] at hlt
      rw [hlt]
      simp [Item.pieces]
    | none =>
      rw [hl] at hlt
      rw [hlt]
      have hfl := frame_pieces c tag hlt locs (readings kids)
      cases hy : layout tag with
      | some ps =>
        rw [hy] at hfl
        obtain ⟨fr, hfr, hps⟩ := Option.map_eq_some_iff.1 hfl
        simp only [Option.map_none, hfr]
        rw [slots_pieces, ih, hps]
      | none =>
        rw [hy] at hfl
        have hfr : frame c tag = none := by simpa using hfl
        simp only [Option.map_none, hfr, seps_separators]
        cases hs : separators tag with
        | some ss => simp only [sepIs_pieces, ih]
        | none =>
          simp only [no_frame hlt hy hs, if_true]
          rw [plainIs0_pieces _ _ _ (by rw [List.length_map, itemsAll_length]), ih]
theorem itemsAll_reading (c : Config) : ∀ ns : List Node,
    (Node.itemsAll c ns).map (·.flatMap Item.pieces) = readings ns
  | [] => rfl
  | n :: ns => by simp only [Node.itemsAll, List.map_cons, readings, items_reading c n, itemsAll_reading c ns]
theorem itemsAll_length (c : Config) : ∀ ns : List Node, ns.length = (Node.itemsAll c ns).length
  | [] => rfl
  | n :: ns => by simp only [Node.itemsAll, List.length_cons, itemsAll_length c ns]
end

/-! ### A tiling covers the source -/

theorem Tile.past {c : Config} {a b : Nat} {ts ts' : List TokL} {is : List Item} (h : Tile c a ts is b ts') :
    ts = [] → ts' = [] := by
  induction h with
  | nil => exact id
  | here _ ih => exact ih
  | gap => intro h; cases h
  | extra _ ih => exact ih
  | lit => intro h; cases h
  | trailNone _ _ ih => exact ih
  | trail => intro h; cases h

theorem finalGap_nil : FinalGap [] := .inl .nil

theorem tiles_fst {s : Str} {a : Nat} {t : TokL} {ts : List TokL} (h : TilesR s a (t :: ts)) :
    ∃ g s', s = g ++ s' ∧ t.l = a + g.length ∧ FinalGap g ∧ (s' ≠ [] → Gap g) ∧ TilesR s' t.l (t :: ts) := by
  rcases h with ⟨h1, h2, h3, h4, h5⟩ | ⟨g, u, s', h1, h2, h3, h4, h5, h6, h7, h8⟩
  · exact ⟨s, [], by simp, h4, h3, fun h => absurd rfl h, .inl ⟨h1, h2, finalGap_nil, by simp, h5⟩⟩
  · exact ⟨g, u ++ s', h2, h4, .inl h3, fun _ => h3, .inr ⟨[], u, s', h1, rfl, .nil, by simp, h5, h6, h7, h8⟩⟩

theorem wordPiece_ne {s : Str} (h : s ≠ []) : wordPiece s = [.word s] := if_neg h

theorem spell_reads_ne {t : Token} {o : Option Char} (h : Reads t o) : spell t ≠ [] := by
  obtain ⟨c, h1, _⟩ := reads_last h
  intro e; rw [e] at h1; cases h1

/-- The pieces of the items cover the source and their words are the tokens. -/
theorem tile_covers {c : Config} {src : Str} {e : TokL} {a b : Nat} {ts ts' : List TokL} {is : List Item}
    (h : Tile c a ts is b ts') : ts' = [e] → e.tok = .eof → b = e.l → ∀ s, src.drop a = s → a ≤ src.length → TilesR s a ts →
      Covers src a (is.flatMap Item.pieces) ∧ wordsOf (is.flatMap Item.pieces) ++ [[]] = ts.map (fun t => spell t.tok) := by
  have word : ∀ {t : TokL} {ts ts' : List TokL} {b : Nat} {s : Str} {is js : List Item}, src.drop t.l = s →
      TilesR s t.l (t :: ts) → t.l ≤ src.length → Tile c t.r ts js b ts' → ts' = [e] →
      (∀ s, src.drop t.r = s → t.r ≤ src.length → TilesR s t.r ts →
        Covers src t.r (is.flatMap Item.pieces) ∧
          wordsOf (is.flatMap Item.pieces) ++ [[]] = ts.map (fun t => spell t.tok)) →
      Covers src t.l (wordPiece (spell t.tok) ++ is.flatMap Item.pieces) ∧
        wordsOf (wordPiece (spell t.tok) ++ is.flatMap Item.pieces) ++ [[]] = (t :: ts).map (fun t => spell t.tok) := by
    intro t ts ts' b s is js hs ht hle hT he ih
    rcases tiles_pos ht with ⟨_, h2, _⟩ | ⟨u, s', h1, h2, h3, h4, h5, h6⟩
    · subst h2
      have := hT.past rfl
      rw [this] at he
      cases he
    · have hd : src.drop t.r = s' := by
        rw [h3, ← List.drop_drop, hs, h2, List.drop_left]
      have hlen : t.r ≤ src.length := by
        have h := congrArg List.length hs
        rw [h2, List.length_drop, List.length_append] at h
        omega
      obtain ⟨i1, i2⟩ := ih s' hd hlen h6
      rcases h5 with ⟨h5, h7⟩ | ⟨x, e', h5, h7, h8, h9, h10, h11⟩
      · rw [wordPiece_ne (spell_reads_ne h7)]
        refine ⟨.inl ⟨?_, ?_⟩, by simp [wordsOf, i2]⟩
        · rw [hs, h2, h5]; exact List.prefix_append _ _
        · rw [← h5, ← h3]; exact i1
      · have hsp : spell t.tok = x ++ ['\n'] := by rw [h5]; rfl
        rw [wordPiece_ne (by rw [hsp]; simp)]
        refine ⟨.inr ⟨?_, ?_, ?_⟩, by simp [wordsOf, i2]⟩
        · rw [hs, h2, h7, h8, hsp, List.append_nil]
        · rw [h5] at h9
          obtain ⟨y, rfl, _⟩ := h9
          rw [hsp]
          exact ⟨y ++ ['\n'], rfl⟩
        · have : src.length = t.r := by
            have h := congrArg List.length hd
            rw [h8, List.length_drop, List.length_nil] at h
            omega
          rw [this]; exact i1
  induction h with
  | @nil a ts =>
    intro h1 h2 h3 s hs hle ht
    subst h1 h3
    rcases tiles_pos ht with ⟨_, _, rfl⟩ | ⟨_, _, h1, _⟩
    · have h := congrArg List.length hs
      rw [List.length_drop, List.length_nil] at h
      refine ⟨?_, by simp [wordsOf, h2, spell]⟩
      show _ = _
      omega
    · exact absurd h2 h1
  | here _ ih =>
    intro h1 h2 h3 s hs hle ht
    obtain ⟨i1, i2⟩ := ih h1 h2 h3 s hs hle ht
    exact ⟨⟨rfl, Nat.le_refl _, hle, by simpa using finalGap_nil, fun _ => by simpa using Gap.nil, i1⟩, i2⟩
  | @gap a b t ts ts' h is _ ih =>
    intro h1 h2 h3 s hs hle ht
    obtain ⟨g, s', rfl, t1, t2, t3, t4⟩ := tiles_fst ht
    have hd : src.drop t.l = s' := by rw [t1, ← List.drop_drop, hs, List.drop_left]
    have hlen : a + (g.length + s'.length) = src.length := by
      have h := congrArg List.length hs
      rw [List.length_drop, List.length_append] at h
      omega
    obtain ⟨i1, i2⟩ := ih h1 h2 h3 s' hd (by omega) t4
    have hk : (src.drop a).take (t.l - a) = g := by rw [hs, t1, Nat.add_sub_cancel_left, List.take_left]
    refine ⟨⟨rfl, by simp only; omega, by simp only; omega, by simpa only [hk] using t2, fun hlt => ?_, i1⟩, i2⟩
    simp only [hk]
    refine t3 fun hn => ?_
    subst hn
    simp only [List.length_nil] at hlen
    simp only at hlt
    omega
  | extra _ ih => exact ih
  | lit hsrc _ hT ih =>
    intro h1 h2 h3 s hs hle ht
    subst hsrc
    exact word hs ht hle hT h1 (ih h1 h2 h3)
  | trailNone _ _ ih => exact ih
  | trail _ _ _ hT ih =>
    intro h1 h2 h3 s hs hle ht
    exact word hs ht hle hT h1 (ih h1 h2 h3)

end Luafmt
