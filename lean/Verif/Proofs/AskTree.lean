import Verif.Proofs.Asks
import Verif.Proofs.LinesTree

/-
From the reasons for newlines to the lines of the output: a token of the output begins a line only where an option asks.
-/
namespace Luafmt
open Spec

variable {c : Config} {NL : Prop}

/-- Formatting without a range: every newline of the output is at a place where `Q` says so. -/
theorem format_asks {src out : Str} (hl : c.lineRange = none) (h : format c src = .ok out) :
    ∃ tree, parseLua src = some tree ∧ Emits False ⟨src, none⟩ c (tree.items c) [] out ∧
      ∀ Q : Option Nat → Prop, (c.bool .writeNewlineAtMultilineTable = some true → Q none) → tree.Allows Q c →
        BEmits Q ⟨src, none⟩ c (tree.items c) [] out := by
  unfold format at h
  split at h
  · cases h
  · next tree ht =>
    have hf : formatTree c src tree = .ok out := by
      split at h <;> cases h
      assumption
    simp only [formatTree, effectiveRange, hl, Res.bind_eq_ok, Res.pure_eq] at hf
    obtain ⟨pr, ⟨pr0, h1, h2⟩, h3⟩ := hf
    simp only [lineRangeToPosRange] at h1
    cases h1
    cases h2
    rw [growRange_none] at h3
    refine ⟨tree, ht, writeTree_ok (proper_of_none c rfl tree) h3, fun Q hn hq => ?_⟩
    simp only [writeTree, Res.bind_eq_ok, Res.pure_eq] at h3
    obtain ⟨st, h1, h2⟩ := h3
    cases h2
    exact write_asks _ rfl c hn none tree hq c _ _ (.refl c) h1

/-! ### There is a gap before every literal -/

/-- Before every literal there is a gap (`b`: before the first one there need not be one). -/
def gappy : Bool → List Item → Prop
  | _, [] => True
  | b, .lit _ _ :: is => b = true ∧ gappy false is
  | _, .gap _ _ :: is => gappy true is
  | b, .extra _ :: is => gappy b is
  | b, .trail _ _ _ :: is => b = true ∧ gappy false is

theorem gappy_mono : ∀ {is : List Item} {b : Bool}, gappy false is → gappy b is
  | [], _, _ => trivial
  | .lit .. :: _, _, h => (by cases h.1)
  | .gap .. :: _, _, h => h
  | .extra _ :: is, _, h => gappy_mono (is := is) h
  | .trail .. :: _, _, h => (by cases h.1)

theorem gappy_append : ∀ {is js : List Item} {b : Bool}, gappy b is → gappy false js → gappy b (is ++ js)
  | [], _, _, _, h => gappy_mono h
  | .lit .. :: is, _, _, h, h' => ⟨h.1, gappy_append (is := is) h.2 h'⟩
  | .gap .. :: is, _, _, h, h' => gappy_append (is := is) h h'
  | .extra _ :: is, _, _, h, h' => gappy_append (is := is) h h'
  | .trail .. :: is, _, _, h, h' => ⟨h.1, gappy_append (is := is) h.2 h'⟩

def gappySlots : Bool → List Slot → Bool
  | _, [] => true
  | b, .lit _ :: is => b && gappySlots false is
  | _, .gap _ _ :: is => gappySlots true is
  | b, .extra _ :: is => gappySlots b is
  | b, .kid _ :: is => b && gappySlots false is

theorem gappy_slots {locs : List Loc} {ks : List (List Item)} (hk : ∀ k ∈ ks, gappy true k) : ∀ {fr : List Slot} {b : Bool},
    gappySlots b fr = true → gappy b (fr.flatMap (slotItems locs ks))
  | [], _, _ => trivial
  | .lit _ :: fr, b, h => by
    simp only [gappySlots, Bool.and_eq_true] at h
    exact ⟨h.1, gappy_slots hk (fr := fr) h.2⟩
  | .gap _ _ :: fr, b, h => gappy_slots hk (fr := fr) h
  | .extra _ :: fr, b, h => gappy_slots hk (fr := fr) h
  | .kid i :: fr, b, h => by
    simp only [gappySlots, Bool.and_eq_true] at h
    rw [h.1]
    refine gappy_append ?_ (gappy_slots hk (fr := fr) h.2)
    show gappy true (ks[i]?.getD [])
    cases hi : ks[i]? with
    | none => trivial
    | some k => exact hk k (List.mem_of_getElem? hi)

theorem frame_gappy {t : Tag} {fr : List Slot} (h : frame c t = some fr) : gappySlots true fr = true := by
  cases t <;> simp only [frame, Tag.template, Option.map_some, Option.map_none, reduceCtorEq, Option.some.injEq] at h <;> subst h <;> rfl

theorem plainIs_gappy : ∀ {ls : List Loc} {ks : List (Tag × List Item)}, (∀ k ∈ ks, gappy true k.2) → gappy false (plainIs ls ks)
  | [], _, _ => trivial
  | _ :: _, [], _ => trivial
  | _ :: ls, (t, k) :: ks, h =>
    gappy_append (h _ List.mem_cons_self) (plainIs_gappy (ls := ls) fun k hk => h k (List.mem_cons_of_mem _ hk))

theorem plainIs0_gappy {ls : List Loc} {ks : List (Tag × List Item)} (h : ∀ k ∈ ks, gappy true k.2) : gappy false (plainIs0 ls ks) := by
  match ls, ks, h with
  | [], _, _ => trivial
  | _ :: _, [], _ => trivial
  | _ :: ls, (t, k) :: ks, h =>
    exact gappy_append (h _ List.mem_cons_self) (plainIs_gappy (ls := ls) fun k hk => h k (List.mem_cons_of_mem _ hk))

theorem sepIs_gappy {tag : Tag} : ∀ {ls : List Loc} {ks : List (List Item)} {h : Str} {ss : List Str}, (∀ k ∈ ks, gappy true k) →
    gappy false (sepIs c tag h ls ks ss)
  | [], _, _, _, _ => by unfold sepIs; trivial
  | [_], _, _, _, _ => by unfold sepIs; trivial
  | _ :: _ :: _, [], _, _, _ => by unfold sepIs; trivial
  | _ :: _ :: _, _ :: _, _, [], _ => by unfold sepIs; trivial
  | pre :: post :: ls, k :: ks, x, s :: ss, h => by
    have := sepIs_gappy (tag := tag) (ls := ls) (ks := ks) (h := elementHint tag) (ss := ss) fun k hk => h k (List.mem_cons_of_mem _ hk)
    refine gappy_append (is := k) (h _ List.mem_cons_self) ?_
    show gappy true _
    split
    · exact ⟨rfl, trivial⟩
    · exact ⟨rfl, this⟩

mutual
theorem items_gappy (c : Config) : ∀ n : Node, gappy true (n.items c)
  | .mk tag span locs kids => by
    have hk := itemsAll_gappy c kids
    simp only [Node.items, itemsOf]
    split
    · exact ⟨rfl, trivial⟩
    · split
      · next fr h => exact gappy_slots hk (frame_gappy h)
      · split
        · exact gappy_mono (sepIs_gappy hk)
        · split
          · exact gappy_mono (plainIs0_gappy fun k hm => hk _ (List.of_mem_zip hm).2)
          · trivial
theorem itemsAll_gappy (c : Config) : ∀ ns : List Node, ∀ k ∈ Node.itemsAll c ns, gappy true k
  | [] => by simp [Node.itemsAll]
  | n :: ns => by
    intro k hk
    simp only [Node.itemsAll, List.mem_cons] at hk
    rcases hk with rfl | hk
    · exact items_gappy c n
    · exact itemsAll_gappy c ns k hk
end

theorem chunk_gappy {tag : Tag} (ht : tag = .chunk ∨ tag = .sheBangChunk) (span : Loc) (locs : List Loc) (kids : List Node) :
    gappy false ((Node.mk tag span locs kids).items c) := by
  have hk := itemsAll_gappy c kids
  rcases ht with rfl | rfl
  · exact gappy_slots (fr := _) hk rfl
  · exact gappy_slots (fr := _) hk rfl

/-! ### The tokens that are not behind the last element of a list -/

/-- The tokens of the literals. -/
def litToks : List Item → List TokL → List TokL
  | [], _ => []
  | .lit _ _ :: is, ts => ts.take 1 ++ litToks is ts.tail
  | .gap _ _ :: is, ts => litToks is ts
  | .extra _ :: is, ts => litToks is ts
  | .trail _ [] _ :: is, ts => litToks is ts
  | .trail _ (_ :: _) _ :: is, ts => litToks is ts.tail

theorem litToks_sub : ∀ {is : List Item} {ts : List TokL}, ∀ t ∈ litToks is ts, t ∈ ts
  | [], _, t, h => (by cases h)
  | .lit .. :: is, ts, t, h => by
    rcases List.mem_append.1 h with h | h
    · exact List.mem_of_mem_take h
    · exact List.mem_of_mem_tail (litToks_sub (is := is) t h)
  | .gap .. :: is, ts, t, h => litToks_sub (is := is) t h
  | .extra _ :: is, ts, t, h => litToks_sub (is := is) t h
  | .trail _ [] _ :: is, ts, t, h => litToks_sub (is := is) t h
  | .trail _ (_ :: _) _ :: is, ts, t, h => List.mem_of_mem_tail (litToks_sub (is := is) t h)

theorem litToks_trail {isF : Bool} {s out : Str} (hs : s ≠ []) {is : List Item} {ts : List TokL} :
    litToks (.trail isF s out :: is) ts = litToks is ts.tail := by
  cases s with
  | nil => exact absurd rfl hs
  | cons x s => rfl

theorem isFieldSep_spell {t : Token} (h : isFieldSep t = true) : spell t ≠ [] := by
  rcases isFieldSep_cases h with rfl | rfl <;> decide

theorem Outs.lits {A : TokL → TokL → Prop} {ts ts' os : List TokL} {is : List Item} (h : Outs c A ts is ts' os) :
    Outs c (fun t t' => A t t' ∧ t ∈ litToks is ts) ts is ts' os := by
  induction h with
  | nil => exact .nil
  | gap _ ih => exact .gap ih
  | extra _ ih => exact .extra ih
  | lit h1 h2 _ ih =>
    exact .lit h1 ⟨h2, by simp [litToks]⟩ (ih.mono fun t _ t' h => ⟨h.1, by simp [litToks, h.2]⟩)
  | none h1 _ ih => exact .none h1 ih
  | add h1 h2 h3 _ ih => exact .add h1 h2 h3 ih
  | drop h1 h2 _ ih => exact .drop h1 h2 (ih.mono fun t _ t' h => ⟨h.1, by rw [litToks_trail (isFieldSep_spell h1)]; exact h.2⟩)
  | keep h1 h2 h3 _ ih => exact .keep h1 h2 h3 (ih.mono fun t _ t' h => ⟨h.1, by rw [litToks_trail (isFieldSep_spell h1)]; exact h.2⟩)
  | litRaw h1 h2 h3 _ ih =>
    exact .litRaw h1 h2 ⟨h3, by simp [litToks]⟩ (ih.mono fun t _ t' h => ⟨h.1, by simp [litToks, h.2]⟩)
  | keepRaw h1 h2 h3 _ ih => exact .keepRaw h1 h2 h3 (ih.mono fun t _ t' h => ⟨h.1, by rw [litToks_trail (isFieldSep_spell h2)]; exact h.2⟩)

end Luafmt
