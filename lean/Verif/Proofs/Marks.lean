import Verif.Proofs.EmitAll
import Verif.Spec.Lines

/-
What the printer puts at the beginning of a line: helper definitions and the lemmas about gaps.
-/
namespace Luafmt
open Spec

/-! ### Texts that end with a fresh line -/

theorem AtLevel.lift {c : Config} {l : Int} {f : Str} (p : Str) (h : AtLevel c l f) : AtLevel c l (p ++ f) := by
  obtain ⟨a, rfl⟩ := h
  exact ⟨p ++ a, by simp⟩

theorem ends_of_getLast? {f : Str} {x : Char} (h : f.getLast? = some x) : ∃ a, f = a ++ [x] := by
  rw [List.getLast?_eq_some_iff] at h
  exact h

theorem ifNewLine_atLevel {c : Config} {lvl : Int} {w : Str → Str → Res Str} {h f g : Str}
    (hn : ifNewLine c lvl true w h f = .ok g) : AtLevel c lvl g := by
  unfold ifNewLine at hn
  simp only [if_true, Res.bind_eq_ok, Res.pure_eq] at hn
  obtain ⟨block, _, h2⟩ := hn
  cases h2
  have key : ∀ f1 : Str, (∃ a, f1 = a ++ ['\n']) → AtLevel c lvl (f1 ++ indentText c lvl) := by
    rintro _ ⟨a, rfl⟩
    exact ⟨a, by simp⟩
  refine key _ ?_
  split
  · split
    · next h =>
      obtain ⟨a, ha⟩ := ends_of_getLast? h
      rw [ha]
      exact ⟨f ++ a, by simp⟩
    · exact ⟨_, rfl⟩
  · generalize (if 1 < byteLen f ∧ (f.getLast? = some ' ' ∨ f.getLast? = some '\t') then f.dropLast else f) = f1
    split
    · next h => exact ends_of_getLast? h
    · exact ⟨_, rfl⟩

/-- A newline that is asked for starts a line. -/
theorem nlW_atLevel {env : Env} {c c' : Config} (hv : Variant c c') {loc : Loc} {x : Str} {st st' : St}
    (h : nlW env c' true loc x st = .ok st') : AtLevel c st.lvl st'.f := by
  simp only [nlW, Res.bind_eq_ok, Res.pure_eq] at h
  obtain ⟨f, hf, h⟩ := h
  cases h
  rw [hv.ifNewLine] at hf
  exact ifNewLine_atLevel hf

/-! ### Gaps without text -/

theorem sliceBytes_same {n : Nat} {s t : Str} (h : sliceBytes n n s = some t) : t = [] := by
  simp only [sliceBytes, Nat.le_refl, if_true, Nat.sub_self, Option.bind_eq_some_iff] at h
  obtain ⟨a, _, h⟩ := h
  cases a <;> simp [takeBytes] at h <;> exact h

theorem substr_same {src buf s : Str} {r o : Nat} (h : substr src ⟨r, r⟩ buf o = .ok s) : s = [] := by
  unfold substr at h
  split at h
  · next a b d ha hb hd =>
    simp only at ha hb
    rw [ha] at hb
    cases hb
    split at h
    · split at h
      · next t ht => cases h; exact sliceBytes_same ht
      · cases h
    · cases h; rfl
  · cases h; rfl

theorem spaceHint_same {e : CEnv} {c : Config} {r : Nat} {f g : Str} (h : spaceHint e c ⟨r, r⟩ [] f = .ok g) : g = f := by
  have put : ∀ {g : Str}, e.put ⟨r, r⟩ f = .ok g → g = f := by
    intro g h
    simp only [CEnv.put, Res.bind_eq_ok, Res.pure_eq] at h
    obtain ⟨s, hs, h⟩ := h
    cases h
    rw [substr_same hs, List.append_nil]
  unfold spaceHint at h
  split at h
  · exact put h
  · split at h
    · cases h; exact List.append_nil f
    · exact put h

theorem commentHint_empty {env : Env} (hr : env.posRange = none) {c : Config} {lvl : Int} {r : Nat} {x f g : Str}
    (h : commentHint env c lvl ⟨r, r⟩ x f = .ok g) : g = f ∨ g = f ++ x := by
  unfold commentHint at h
  simp only [hr, outOfRange, Bool.false_eq_true, if_false, Res.bind_eq_ok] at h
  obtain ⟨cbuf, hb, h⟩ := h
  cases substr_same hb
  have hp : parseComment [] = some ⟨⟨0, 0⟩, ⟨0, 0⟩, [], ⟨0, 0⟩⟩ := by decide +kernel
  simp only [hp, Res.bind_eq_ok] at h
  obtain ⟨full, hf, h⟩ := h
  have hfull : full = [f.getLast?.getD ' '] := by
    unfold cchunkWrite at hf
    simp only [commentRange, Option.map_none, outOfRange, Bool.false_eq_true, if_false, Res.bind_eq_ok] at hf
    obtain ⟨f1, h1, f2, h2, h3⟩ := hf
    have e1 := spaceHint_same h1
    have e3 := spaceHint_same h3
    unfold cvariantWrite at h2
    simp only [outOfRange, Bool.false_eq_true, if_false, and_false] at h2
    cases h2
    rw [e3, e1]
  subst hfull
  split at h
  · cases h
  · next block hd =>
    simp only [Res.pure_eq] at h
    cases h
    have hb : block = [] := by
      simp only [dropBytes] at hd
      split at hd
      · revert hd
        generalize 0 + 1 - (f.getLast?.getD ' ').utf8Size = n
        intro hd
        cases n <;> simp [dropBytes] at hd
        exact hd
      · cases hd
    rw [hb]
    unfold commentBlockText
    simp only [if_true]
    split
    · exact .inr rfl
    · exact .inl (by simp)

theorem commentHint_same {env : Env} (hr : env.posRange = none) {c : Config} {lvl : Int} {r : Nat} {f g : Str}
    (h : commentHint env c lvl ⟨r, r⟩ [] f = .ok g) : g = f := by
  simpa using commentHint_empty hr h

/-- The gap of zero width before the first item of a list writes nothing. -/
theorem nlW_same {env : Env} (hr : env.posRange = none) {c : Config} {r : Nat} {st st' : St}
    (h : nlW env c false ⟨r, r⟩ [] st = .ok st') : st'.f = st.f := by
  simp only [nlW, ifNewLine, Bool.false_eq_true, if_false, Res.bind_eq_ok, Res.pure_eq] at h
  obtain ⟨f, hf, h⟩ := h
  cases h
  exact commentHint_same hr hf

theorem hintW_same {env : Env} (hr : env.posRange = none) {c : Config} {loc : Loc} {x : Str} {is : List Item} {st st' : St}
    (h : hintW env c loc x st = .ok st') : Quiet loc x is st.f st'.f := by
  intro _ hl hx
  obtain ⟨l, r⟩ := loc
  cases (show l = r from hl)
  subst hx
  simp only [hintW, Res.bind_eq_ok, Res.pure_eq] at h
  obtain ⟨f, hf, h⟩ := h
  cases h
  exact commentHint_same hr hf

/-! ### Items that do not begin with the end of a list -/

theorem slots_head {locs : List Loc} {ks : List (List Item)} (hk : ∀ k ∈ ks, NoEnd k) (S : List Slot) :
    NoEnd (S.flatMap (slotItems locs ks)) := by
  induction S with
  | nil => trivial
  | cons s S ih =>
    rw [List.flatMap_cons]
    refine NoEnd.append ?_ ih
    cases s with
    | kid i =>
      simp only [slotItems]
      cases h : ks[i]? with
      | none => trivial
      | some k => exact hk k (List.mem_of_getElem? h)
    | lit => trivial
    | gap => trivial
    | extra => trivial

theorem plainIs_head (locs : List Loc) (ks : List (Tag × List Item)) : NoEnd (plainIs locs ks) := by
  unfold plainIs
  split <;> trivial

theorem sepIs_head (c : Config) (t : Tag) (h : Str) (locs : List Loc) (ks : List (List Item)) (ss : List Str) :
    NoEnd (sepIs c t h locs ks ss) := by
  unfold sepIs
  split <;> trivial

theorem itemsOf_head {c : Config} {t : Tag} {locs : List Loc} {tags : List Tag} {ks : List (List Item)} (hk : ∀ k ∈ ks, NoEnd k) :
    NoEnd (itemsOf c t locs tags ks) := by
  unfold itemsOf
  split
  · trivial
  · split
    · exact slots_head hk _
    · split
      · exact sepIs_head ..
      · split
        · unfold plainIs0
          split <;> trivial
        · trivial

mutual
theorem items_head (c : Config) : ∀ n : Node, NoEnd (n.items c)
  | .mk _ _ _ kids => itemsOf_head (itemsAll_head c kids)
theorem itemsAll_head (c : Config) : ∀ ns : List Node, ∀ k ∈ Node.itemsAll c ns, NoEnd k
  | [], _, h => by cases h
  | n :: ns, k, h => by
    simp only [Node.itemsAll, List.mem_cons] at h
    rcases h with rfl | h
    · exact items_head c n
    · exact itemsAll_head c ns k h
end

/-! ### Renderings with marks -/

theorem LEmits.weaken {W : Prop} {env : Env} {c : Config} {p : Option Nat} {is : List Item} {ms : List (Nat × Mk)} {f f' : Str}
    (h : LEmits W env c none is ms f f') : LEmits W env c p is ms f f' := by
  generalize hq : (none : Option Nat) = q at h
  induction h generalizing p with
  | nil => exact .nil
  | lit ls hls h _ =>
    subst hq
    exact .lit0 h
  | gap hg hw h _ => exact .gap hg hw h
  | extra hg _ ih => exact .extra hg (ih hq)
  | trail b hb h _ => exact .trail b hb h
  | litRaw ls hr hls h _ =>
    subst hq
    exact .litRaw0 hr h
  | gapRaw hr hg h _ => exact .gapRaw hr hg h
  | extraRaw hr _ ih => exact .extraRaw hr (ih hq)
  | trailRaw hr h _ => exact .trailRaw hr h

theorem LEmits.append {W : Prop} {env : Env} {c : Config} {p : Option Nat} {is js : List Item} {ms ms' : List (Nat × Mk)}
    {f f1 f' : Str} (h : LEmits W env c p is ms f f1) (h' : LEmits W env c none js ms' f1 f') (hj : NoEnd js) :
    LEmits W env c p (is ++ js) (ms ++ ms') f f' := by
  induction h with
  | nil => exact h'.weaken
  | lit ls hls _ ih => rw [List.append_assoc]; exact .lit ls hls (ih h')
  | gap hg hq _ ih => exact .gap (hg.append _) (hq.imp id fun hq hn => hq fun hi => hn (hi.append hj)) (ih h')
  | extra hg _ ih => exact .extra hg (ih h')
  | trail b hb _ ih => exact .trail b hb (ih h')
  | litRaw ls hr hls _ ih => rw [List.append_assoc]; exact .litRaw ls hr hls (ih h')
  | gapRaw hr hg _ ih => exact .gapRaw hr hg (ih h')
  | extraRaw hr _ ih => exact .extraRaw hr (ih h')
  | trailRaw hr _ ih => exact .trailRaw hr (ih h')

theorem LEmits.grows {W : Prop} {env : Env} {c : Config} {p : Option Nat} {is : List Item} {ms : List (Nat × Mk)} {f f' : Str}
    (h : LEmits W env c p is ms f f') : Grows f f' := by
  induction h with
  | nil => exact .refl _
  | lit _ _ _ ih => exact (Grows.append _ _).trans ih
  | litRaw _ _ _ _ ih => exact (Grows.append _ _).trans ih
  | gap hg _ _ ih => exact hg.1.grows.trans ih
  | gapRaw _ _ _ ih => exact (Grows.append _ _).trans ih
  | extra hg _ ih => exact hg.gapStep.grows.trans ih
  | extraRaw _ _ ih => exact ih
  | trail b _ _ ih =>
    refine Grows.trans ?_ ih
    cases b
    · exact .refl _
    · exact .append _ _
  | trailRaw _ _ ih => exact (Grows.append _ _).trans ih

theorem lenAfterNewline_append {f s : Str} (h : '\n' ∉ s) : lenAfterNewline (f ++ s) = lenAfterNewline f + s.length := by
  unfold lenAfterNewline lenTillNewline
  have : ∀ {a b : Str}, '\n' ∉ a → (a ++ b).takeWhile (· != '\n') = a ++ b.takeWhile (· != '\n') := by
    intro a b ha
    induction a with
    | nil => rfl
    | cons x a ih =>
      rw [List.cons_append, List.takeWhile_cons_of_pos (by simp only [bne_iff_ne, ne_eq]; rintro rfl; simp at ha),
        ih (fun h => ha (by simp [h])), List.cons_append]
  rw [List.reverse_append, this (by simpa using h)]
  simp [Nat.add_comm]

/-- A mark behind another text with `n` newlines and a last line of width `w`. -/
def Mk.shift (n w : Nat) : Mk → Mk
  | .lvl l => .lvl l
  | .beg k => .beg (n + k)
  | .fin k v => .fin (n + k) (w + v)
  | .mid _ => .mid false

/-- The marks behind another text. -/
def shiftMarks (q : Str) (ms : List (Nat × Mk)) : List (Nat × Mk) :=
  ms.map fun m => (m.1, m.2.shift (q.count '\n') (lenAfterNewline q))

theorem shiftMarks_append (q : Str) (ms ms' : List (Nat × Mk)) : shiftMarks q (ms ++ ms') = shiftMarks q ms ++ shiftMarks q ms' := by
  simp [shiftMarks]

theorem shiftMarks_at (q : Str) (p : Option Nat) (ls : List Mk) :
    shiftMarks q (marksAt p ls) = marksAt p (ls.map (·.shift (q.count '\n') (lenAfterNewline q))) := by
  cases p <;> simp [shiftMarks, marksAt, Function.comp_def]

theorem mem_shiftMarks {q : Str} {ms : List (Nat × Mk)} {r : Nat} {m : Mk} (h : (r, m) ∈ ms) :
    (r, m.shift (q.count '\n') (lenAfterNewline q)) ∈ shiftMarks q ms :=
  List.mem_map.2 ⟨_, h, rfl⟩

theorem Mk.Holds.lift {c : Config} {f g : Str} {m : Mk} (q : Str) (h : m.Holds c f g) (hg : '\n' ∉ g) :
    (m.shift (q.count '\n') (lenAfterNewline q)).Holds c (q ++ f) (q ++ g) := by
  cases m with
  | lvl l =>
    rcases h with h | ⟨f0, h, rfl, rfl⟩
    · exact .inl (AtLevel.lift q h)
    · exact .inr ⟨q ++ f0, AtLevel.lift q h, by simp, by simp⟩
  | beg n =>
    show (q ++ f).count '\n' = _
    rw [List.count_append, show f.count '\n' = n from h]
  | fin n w =>
    obtain ⟨h1, h2, a, x, h3, h4⟩ := h
    refine ⟨by rw [List.count_append, h1], ?_, q ++ a, x, by rw [h3, List.append_assoc], h4⟩
    rw [lenAfterNewline_append hg, ← h2]
    have := lenAfterNewline_append (f := []) hg
    simpa [lenAfterNewline, lenTillNewline] using this.symm
  | mid b => exact fun h => by cases h

theorem LEmits.lift {W : Prop} {env : Env} {c : Config} {p : Option Nat} {is : List Item} {ms : List (Nat × Mk)} {f f' : Str}
    (q : Str) (h : LEmits W env c p is ms f f') (hn : '\n' ∉ f') : LEmits W env c p is (shiftMarks q ms) (q ++ f) (q ++ f') := by
  induction h with
  | nil => exact .nil
  | lit ls hls h ih =>
    rw [shiftMarks_append, shiftMarks_at]
    refine .lit _ (fun l hl => ?_) (by simpa using ih hn)
    obtain ⟨l', hl', rfl⟩ := List.mem_map.1 hl
    rw [List.append_assoc]
    exact (hls l' hl').lift q fun e => hn (h.grows.newline e)
  | gap hg hq h ih => exact .gap (hg.lift q fun e => hn (h.grows.newline e)) (hq.imp id fun hq a b d => by rw [hq a b d]) (ih hn)
  | extra hg h ih => exact .extra (hg.lift q fun e => hn (h.grows.newline e)) (ih hn)
  | trail b hb _ ih =>
    refine .trail b hb ?_
    cases b
    · exact ih hn
    · simpa using ih hn
  | litRaw ls hr hls h ih =>
    rw [shiftMarks_append, shiftMarks_at]
    refine .litRaw _ hr (fun l hl => ?_) (by simpa using ih hn)
    obtain ⟨l', hl', rfl⟩ := List.mem_map.1 hl
    rw [List.append_assoc]
    exact (hls l' hl').lift q fun e => hn (h.grows.newline e)
  | gapRaw hr hg _ ih => exact .gapRaw hr hg (by simpa using ih hn)
  | extraRaw hr _ ih => exact .extraRaw hr (ih hn)
  | trailRaw hr _ ih => exact .trailRaw hr (by simpa using ih hn)

/-- More marks for a literal that is the first item. -/
theorem LEmits.addMarks {W : Prop} {env : Env} {c : Config} {p : Option Nat} {src out : Str} {is : List Item}
    {ms : List (Nat × Mk)} {f f' : Str} (h : LEmits W env c p (.lit src out :: is) ms f f') {ls : List Mk}
    (hls : ∀ l ∈ ls, ∀ g, l.Holds c f g) : LEmits W env c p (.lit src out :: is) (marksAt p ls ++ ms) f f' := by
  generalize hj : Item.lit src out :: is = js at h
  cases h with
  | lit ls' hls' h =>
    rw [← List.append_assoc]
    have e : marksAt p ls ++ marksAt p ls' = marksAt p (ls ++ ls') := by cases p <;> simp [marksAt]
    rw [e]
    exact .lit _ (fun l hl => (List.mem_append.1 hl).elim (fun hl => hls l hl _) (hls' l)) h
  | litRaw ls' hr hls' h =>
    cases hj
    rw [← List.append_assoc]
    have e : marksAt p ls ++ marksAt p ls' = marksAt p (ls ++ ls') := by cases p <;> simp [marksAt]
    rw [e]
    exact .litRaw _ hr (fun l hl => (List.mem_append.1 hl).elim (fun hl => hls l hl _) (hls' l)) h
  | nil => cases hj
  | gap => cases hj
  | extra => cases hj
  | trail => cases hj
  | gapRaw => cases hj
  | extraRaw => cases hj
  | trailRaw => cases hj

/-- The additional gap before the brace of a table writes the hint or nothing, if it writes no newline. -/
theorem PlainStep.brace {env : Env} (hr : env.posRange = none) {c : Config} {x f1 : Str}
    (h : PlainStep env c ⟨0, 0⟩ x [] f1) (hn : '\n' ∉ f1) : f1 = [] ∨ f1 = x := by
  obtain ⟨p, f0, g, lvl, b, h1, h2, h3, _, _⟩ := h
  obtain ⟨rfl, rfl⟩ : p = [] ∧ f0 = [] := by simpa [eq_comm] using h1
  rw [List.nil_append] at h2
  subst h2
  unfold ifNewLine at h3
  split at h3
  · simp only [Res.bind_eq_ok, Res.pure_eq] at h3
    obtain ⟨block, hb, h3⟩ := h3
    cases commentHint_same hr hb
    exfalso
    apply hn
    cases h3
    have e : trimEndSpaces [] = [] := by decide
    rw [e]
    simp
  · simpa using commentHint_empty hr h3

/-- A table that is written behind another text: its brace stands where the text ends, or behind the hint. -/
theorem LEmits.liftBrace {W : Prop} {env : Env} (hr : env.posRange = none) {c : Config} {p : Option Nat} {src : Str}
    {is : List Item} {ms : List (Nat × Mk)} {f' : Str}
    (h : LEmits W env c p (.extra ((c.str .hintTableConstructor).getD []) :: .lit src ['{'] :: is) ms [] f') (hn : '\n' ∉ f')
    (q : Str) {ls : List Int} (hls : ∀ l ∈ ls, AtLevel c l q) :
    LEmits W env c p (.extra ((c.str .hintTableConstructor).getD []) :: .lit src ['{'] :: is)
      (marksAt p (ls.map .lvl) ++ shiftMarks q ms) q (q ++ f') := by
  cases h with
  | extraRaw hr' => exact absurd hr hr'
  | extra hg h =>
    have hn1 := fun e => hn (h.grows.newline e)
    have hb := hg.brace hr hn1
    have hq := hg.lift q hn1
    rw [List.append_nil] at hq
    refine .extra hq ?_
    cases h with
    | litRaw _ hr' => exact absurd hr hr'
    | lit ls' hls' h =>
      rw [shiftMarks_append, shiftMarks_at, ← List.append_assoc]
      have e : ∀ l1 l2 : List Mk, marksAt p l1 ++ marksAt p l2 = marksAt p (l1 ++ l2) := by cases p <;> simp [marksAt]
      rw [e]
      refine .lit _ (fun l hl => ?_) (by simpa using h.lift q hn)
      rcases List.mem_append.1 hl with hl | hl
      · obtain ⟨l', hl', rfl⟩ := List.mem_map.1 hl
        rcases hb with rfl | rfl
        · exact .inl (by simpa using hls l' hl')
        · exact .inr ⟨q, hls l' hl', rfl, rfl⟩
      · obtain ⟨l', hl', rfl⟩ := List.mem_map.1 hl
        rw [List.append_assoc]
        exact (hls' l' hl').lift q fun e => hn (h.grows.newline e)

/-- In a text without newlines there is none before the literal that is the first item, but for an additional gap. -/
theorem LEmits.addFirst {W : Prop} {env : Env} {c : Config} (hr : env.posRange = none) {p : Option Nat} {src out : Str} {is : List Item}
    {h : Option Str} {ms : List (Nat × Mk)} {f f' : Str}
    (hE : LEmits W env c p ((h.toList.map Item.extra) ++ .lit src out :: is) ms f f') (hn : '\n' ∉ f') :
    ∃ ms', LEmits W env c p ((h.toList.map Item.extra) ++ .lit src out :: is) ms' f f' ∧ (∀ m ∈ ms, m ∈ ms') ∧
      ∀ r, p = some r → (r, Mk.beg 0) ∈ ms' := by
  have key : ∀ {f : Str} {ms : List (Nat × Mk)}, LEmits W env c p (.lit src out :: is) ms f f' →
      ∃ ms', LEmits W env c p (.lit src out :: is) ms' f f' ∧ (∀ m ∈ ms, m ∈ ms') ∧ ∀ r, p = some r → (r, Mk.beg 0) ∈ ms' := by
    intro f ms hE
    refine ⟨_, hE.addMarks (ls := [.beg 0]) ?_, fun m hm => List.mem_append_right _ hm, fun r hp => ?_⟩
    · intro l hl g
      cases List.mem_singleton.1 hl
      exact List.count_eq_zero.2 fun e => hn (hE.grows.newline e)
    · subst hp
      exact List.mem_append_left _ (by simp [marksAt])
  cases h with
  | none => exact key hE
  | some h =>
    cases hE with
    | extraRaw hr' => exact absurd hr hr'
    | extra hg hE =>
      obtain ⟨ms', h1, h2⟩ := key hE
      exact ⟨ms', .extra hg h1, h2⟩

/-- More marks for a literal that is the last item, behind a gap. -/
theorem LEmits.addLast {W : Prop} {env : Env} {c : Config} (hr : env.posRange = none) {is : List Item} {loc : Loc} {h src out : Str} {ls : List Mk} :
    ∀ {p : Option Nat} {ms : List (Nat × Mk)} {f f' : Str}, LEmits W env c p (is ++ [.gap loc h, .lit src out]) ms f f' →
    (∀ l ∈ ls, ∀ g, f' = g ++ out → l.Holds c g f') →
    ∃ ms', LEmits W env c p (is ++ [.gap loc h, .lit src out]) ms' f f' ∧ (∀ m ∈ ms, m ∈ ms') ∧ ∀ l ∈ ls, (loc.r, l) ∈ ms' := by
  induction is with
  | nil =>
    intro p ms f f' hE hls
    cases hE with
    | gapRaw hr' => exact absurd hr hr'
    | gap hg hq hE =>
      cases hE with
      | litRaw _ hr' => exact absurd hr hr'
      | lit ls' hls' hE =>
        cases hE
        refine ⟨_, .gap hg hq (.lit (ls ++ ls') (fun l hl => ?_) .nil), ?_, ?_⟩
        · exact (List.mem_append.1 hl).elim (fun hl => hls l hl _ rfl) (hls' l)
        · intro m hm
          simp only [marksAt, List.append_nil, List.mem_map, List.mem_append] at hm ⊢
          obtain ⟨l, hl, e⟩ := hm
          exact ⟨l, .inr hl, e⟩
        · intro l hl
          simp only [marksAt, List.append_nil, List.mem_map, List.mem_append]
          exact ⟨l, .inl hl, rfl⟩
  | cons i is ih =>
    intro p ms f f' hE hls
    cases hE with
    | gapRaw hr' => exact absurd hr hr'
    | litRaw _ hr' => exact absurd hr hr'
    | extraRaw hr' => exact absurd hr hr'
    | trailRaw hr' => exact absurd hr hr'
    | lit ls' hls' hE =>
      obtain ⟨ms', h1, h2, h3⟩ := ih hE hls
      refine ⟨_, .lit ls' hls' h1, fun m hm => ?_, fun l hl => List.mem_append_right _ (h3 l hl)⟩
      exact (List.mem_append.1 hm).elim (fun h => List.mem_append_left _ h) fun h => List.mem_append_right _ (h2 m h)
    | gap hg hq hE =>
      obtain ⟨ms', h1, h2, h3⟩ := ih hE hls
      refine ⟨_, .gap hg hq h1, h2, h3⟩
    | extra hg hE =>
      obtain ⟨ms', h1, h2, h3⟩ := ih hE hls
      exact ⟨_, .extra hg h1, h2, h3⟩
    | trail b hb hE =>
      obtain ⟨ms', h1, h2, h3⟩ := ih hE hls
      exact ⟨_, .trail b hb h1, h2, h3⟩

theorem marksAt_mem {p : Option Nat} {ls : List Mk} {r : Nat} {l : Mk} (hp : p = some r) (hl : l ∈ ls) :
    (r, l) ∈ marksAt p ls := by
  subst hp
  exact List.mem_map.2 ⟨l, hl, rfl⟩

/-! ### Variants that keep the options of the claim -/

/-- The options but those of the list have their values. -/
def KeepsBut (z : List NOpt) (c c' : Config) : Prop :=
  ∀ o, o ∉ z → c'.num o = c.num o

theorem KeepsBut.refl (z : List NOpt) (c : Config) : KeepsBut z c c := fun _ _ => rfl

theorem KeepsBut.setNum {z : List NOpt} {c c' : Config} (h : KeepsBut z c c') {o : NOpt} (ho : o ∈ z) (v : Option Nat) :
    KeepsBut z c (c'.setNum o v) := by
  intro p hp
  have : p ≠ o := by
    rintro rfl
    exact hp ho
  simp only [Config.num, Config.setNum, upd, if_neg this]
  exact h p hp

theorem KeepsBut.setBool {z : List NOpt} {c c' : Config} (h : KeepsBut z c c') (o : BOpt) (v : Option Bool) :
    KeepsBut z c (c'.setBool o v) :=
  fun p hp => h p hp

theorem KeepsBut.more {z : List NOpt} {c c' : Config} (h : KeepsBut z c c') (y : List NOpt) : KeepsBut (y ++ z) c c' :=
  fun p hp => h p fun e => hp (List.mem_append_right _ e)

theorem overruled_table {c : Config} (hm : c.num .maxWidth ≠ none) (h : c.bool .forceSingleLineTable = some true) (u : Bool) (a b) :
    overruled c u (.tableConstructor a b) = [.newlineFormatTableConstructor, .newlineFormatTableField] := by
  simp [overruled, hm, h]

theorem overruled_if {c : Config} (hm : c.num .maxWidth ≠ none) (h : c.bool .forceSingleLineIf = some true) (u : Bool) {t : Tag}
    (ht : t.isIf = true) : overruled c u t = [.newlineFormatIf] := by
  cases t <;> first | (cases ht; done) | (simp [overruled, hm, h])

theorem overruled_func {c : Config} (hm : c.num .maxWidth ≠ none) {u : Bool}
    (h : c.bool (if u then .forceSingleLineScopedFunction else .forceSingleLineTopLevelFunction) = some true) {t : Tag}
    (ht : t.isFuncBody = true) : overruled c u t = [.newlineFormatFunction] := by
  cases t <;> first | (cases ht; done) | (simp only [overruled, if_neg hm, if_pos h])

theorem onelineCfg_keeps {z : List NOpt} {c c' tc : Config} (hv : Variant c c') (hk : KeepsBut z c c') {t : Tag} {span : Loc}
    {st : St} (h : onelineCfg c' t span st = some tc) :
    overruled c (decide (0 < st.fn)) t ≠ [] ∧ KeepsBut (overruled c (decide (0 < st.fn)) t ++ z) c tc := by
  have hw : (c'.num .maxWidth).isSome = true → c.num .maxWidth ≠ none := by
    rw [hv.numEq (by decide)]
    intro h e
    rw [e] at h
    cases h
  unfold onelineCfg at h
  split at h
  · split at h
    · next hc =>
      cases h
      simp only [Bool.and_eq_true, beq_iff_eq] at hc
      have hf : c.bool .forceSingleLineTable = some true := by
        rw [← hv.boolEq (by decide)]; exact hc.1.2
      rw [overruled_table (hw hc.1.1.1) hf _]
      exact ⟨by simp, ((((hk.more _).setNum (by simp) _).setNum (by simp) _).setBool _ _).setBool _ _ |>.setBool _ _⟩
    · cases h
  · split at h
    · next ht =>
      split at h
      · next hc =>
        cases h
        simp only [Bool.and_eq_true, beq_iff_eq] at hc
        rw [hv.boolEq (by decide)] at hc
        rw [overruled_if (hw hc.1.1.1) hc.1.1.2 _ ht]
        exact ⟨by simp, (hk.more _).setNum (by simp) _⟩
      · cases h
    · split at h
      · next ht =>
        split at h
        · next hc =>
          cases h
          simp only [Bool.and_eq_true, Bool.or_eq_true, beq_iff_eq, decide_eq_true_eq] at hc
          rw [hv.boolEq (by decide), hv.boolEq (by decide)] at hc
          rw [overruled_func (hw hc.1.1.1) (by
            rcases hc.2 with h | h
            · rw [show decide (0 < st.fn) = false by simp [h.1]]
              exact h.2
            · rw [show decide (0 < st.fn) = true by simp [h.1]]
              exact h.2) ht]
          exact ⟨by simp, (hk.more _).setNum (by simp) _⟩
        · cases h
      · cases h

end Luafmt
