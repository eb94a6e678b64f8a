import Verif.Proofs.AskTree
import Verif.Proofs.Spaced

/-
The marks of the literals before which there is no newline.
-/
namespace Luafmt
open Spec

variable {c : Config} {Q : Option Nat → Prop} {env : Env}

/-- The text ends in a newline and blanks. -/
def Fresh (f : Str) : Prop := ∃ a w, f = a ++ '\n' :: w ∧ ∀ x ∈ w, x = ' ' ∨ x = '\t'

theorem Fresh.back {f K : Str} (hK : '\n' ∉ K) (h : Fresh (f ++ K)) : Fresh f := by
  obtain ⟨a, w, e0, hw⟩ := h
  have e1 := List.append_eq_append_iff.1 e0
  clear e0
  rcases e1 with ⟨d, rfl, rfl⟩ | ⟨d, rfl, e⟩
  · exact absurd (by simp) hK
  · cases d with
    | nil => exact absurd (by rw [List.nil_append] at e; rw [← e]; simp) hK
    | cons x d =>
      cases (List.cons.inj e).1
      exact ⟨a, d, rfl, fun x hx => hw x (by rw [(List.cons.inj e).2]; exact List.mem_append_left _ hx)⟩

/-- Texts of tokens. -/
def Closed (x : Str) : Prop := ∃ ch, x.getLast? = some ch ∧ ch ≠ ' ' ∧ ch ≠ '\t' ∧ ch ≠ '\n'

theorem Closed.fresh {f x : Str} (h : Closed x) : ¬ Fresh (f ++ x) := by
  rintro ⟨a, w, e, hw⟩
  obtain ⟨ch, h1, h2, h3, h4⟩ := h
  have h5 : (f ++ x).getLast? = some ch := by rw [List.getLast?_append, h1]; rfl
  rw [e, List.getLast?_append] at h5
  cases w with
  | nil => simp at h5; exact h4 h5.symm
  | cons y w =>
    have : ('\n' :: y :: w).getLast? = (y :: w).getLast? := by simp [List.getLast?_cons]
    rw [this] at h5
    cases hl : (y :: w).getLast? with
    | none => simp at hl
    | some z =>
      rw [hl] at h5
      have h6 : z = ch := Option.some.inj h5
      rcases hw z (List.mem_of_getLast? hl) with h | h
      · exact h2 (h6.symm.trans h)
      · exact h3 (h6.symm.trans h)

theorem ends_reads {t : Token} (h : ∃ n, Reads t n) (hs : ∀ s, t ≠ .sheBang s) : Closed (spell t) := by
  obtain ⟨n, h⟩ := h
  obtain ⟨ch, h1, h2, h3, h4⟩ := reads_last h
  exact ⟨ch, h1, h2, h3, fun e => (h4 e).elim hs⟩

theorem ends_sep (hh : BlankHints c) {s : Str} (h : c.str .fieldSeparator = some s) : Closed s := by
  rcases hh.sep s h with rfl | rfl
  · exact ⟨',', rfl, by decide, by decide, by decide⟩
  · exact ⟨';', rfl, by decide, by decide, by decide⟩

theorem ends_out (hh : BlankHints c) {t : Token} {out : Str} (h : TokOut c t out) (ht : Closed (spell t)) : Closed out := by
  rcases h with rfl | ⟨s, rfl, _, rfl⟩ | ⟨_, h⟩
  · exact ht
  · exact ⟨'"', by simp [spell, List.getLast?_cons, List.getLast?_append], by decide, by decide, by decide⟩
  · exact ends_sep hh h

/-- A gap whose newline nobody asks for does not begin a line. -/
theorem askStep_fresh (hh : BlankHints c) (ha : AllowGap c False) (hr : env.posRange = none) {A : Int → Prop} {pre k rest : Str}
    (hb : env.buf = pre ++ (k ++ rest)) (hk : FinalGap k) {loc : Loc} (hl : loc = ⟨pre.length, pre.length + k.length⟩) {h f f1 : Str}
    (hx : HintOk False h) (hs : AskStep A env c loc h f f1) (hF : Fresh f1) : Fresh f ∨ ∃ lvl, A lvl := by
  obtain ⟨p, f0, g, lvl, b, rfl, rfl, h1, h2, _⟩ := hs
  cases b with
  | true => exact .inr ⟨lvl, h2 rfl⟩
  | false =>
    left
    simp only [ifNewLine] at h1
    subst hl
    obtain ⟨K, es', rfl, hw⟩ := commentHint_wrote hh ha (.inl hr) hb hk (fun hR => hR.nl.elim) rfl rfl hx h1
    rw [← List.append_assoc] at hF
    exact hF.back (hw.nl id)

/-- The source text of a gap. -/
theorem tile_gap {a b : Nat} {ts ts' : List TokL} {loc : Loc} {h : Str} {is : List Item}
    (hT : Tile c a ts (.gap loc h :: is) b ts') {s : Str} (ht : TilesR s a ts) :
    ∃ k s', s = k ++ s' ∧ loc = ⟨a, a + k.length⟩ ∧ FinalGap k ∧ TilesR s' (a + k.length) ts ∧ Tile c (a + k.length) ts is b ts' := by
  cases hT with
  | here hT => exact ⟨[], s, rfl, rfl, .inl .nil, ht, hT⟩
  | gap hT =>
    obtain ⟨g, s', h1, h2, h3, _, h4⟩ := tiles_fst ht
    rw [h2] at h4 hT
    exact ⟨g, s', h1, by rw [h2], h3, h4, hT⟩

theorem tiles_lt {s : Str} {a : Nat} {t : TokL} {us : List TokL} (h : TilesR s a (t :: us)) : ∀ u ∈ us, t.l < u.l := by
  rcases h with ⟨_, rfl, _⟩ | ⟨g, u, s', _, _, _, _, h5, h6, _, h8⟩
  · intro u hu; cases hu
  · intro v hv
    have := tilesR_ge h8 v hv
    have := List.length_pos_iff.mpr h6
    omega

theorem AskStep.plain {A : Int → Prop} {loc : Loc} {h f f1 : Str} (hs : AskStep A env c loc h f f1) (hA : ∀ l, A l → NlOpt c) :
    PlainStep env c loc h f f1 := by
  obtain ⟨p, f0, g, lvl, b, h1, h2, h3, h4, h5⟩ := hs
  exact ⟨p, f0, g, lvl, b, h1, h2, h3, fun e => hA _ (h4 e), h5⟩

/-- A token before which a line may begin. -/
def MayBegin (c : Config) (Pos : Nat → Prop) (t : TokL) : Prop :=
  Pos t.l ∨ t.tok = .eof ∨ c.bool .writeNewlineAtMultilineTable = some true ∧ t.tok = .openCurly

theorem lit_mark {p : Option Nat} {is : List Item} {ms : List (Nat × Mk)} {t : TokL} {src out f r : Str} {Pos : Nat → Prop}
    (hp : p = some t.l) (hF : Fresh f → MayBegin c Pos t) (h : LEmits True env c none is ms (f ++ out) r) :
    ∃ ms', LEmits True env c p (.lit src out :: is) ms' f r ∧ (∀ m ∈ ms, m ∈ ms') ∧ (MayBegin c Pos t ∨ (t.l, Mk.mid true) ∈ ms') := by
  subst hp
  by_cases hg : MayBegin c Pos t
  · exact ⟨ms, .lit0 h, fun _ h => h, .inl hg⟩
  · refine ⟨_, .lit [.mid true] ?_ h, fun m hm => List.mem_append_right _ hm, .inr (by simp [marksAt])⟩
    intro l hl
    cases List.mem_singleton.1 hl
    intro _ hf
    exact hg (hF hf)

/-- Every literal before which nobody asks for a line is marked. -/
theorem mid_marks (hh : BlankHints c) (ha : AllowGap c False) (hr : env.posRange = none) {Pos : Nat → Prop} {E : Nat}
    (hPos : ∀ p, Pos p → NlOpt c) (hQ : ∀ p, Q (some p) → Pos p ∨ p = E ∧ NlOpt c)
    (hQn : Q none → c.bool .writeNewlineAtMultilineTable = some true) {is : List Item} {f r : Str} (hE : BEmits Q env c is f r) :
    ∀ {a b : Nat} {ts ts' : List TokL} {p : Option Nat} {gb : Bool} {pre s : Str}, Tile c a ts is b ts' → env.buf = pre ++ s →
    pre.length = a → TilesR s a ts → (∃ e, ts' = [e]) →
    (∀ t ∈ ts, (t.tok = .eof ∨ ∃ n, Reads t.tok n) ∧ ∀ x, t.tok ≠ .sheBang x) → (∀ i ∈ is, i.hintOk False) → gappy gb is →
    (gb = true → p = some a) → (Fresh f → ∃ t us, ts = t :: us ∧ MayBegin c Pos t) →
    (∀ p, Pos p → a ≤ p → ∃ u ∈ litToks is ts, u.l = p) → (∀ t ∈ ts, E ≤ t.l → t.tok = .eof) →
    ∃ ms, LEmits True env c p is ms f r ∧ ∀ t ∈ litToks is ts, MayBegin c Pos t ∨ (t.l, Mk.mid true) ∈ ms := by
  -- the token of a literal
  have tok : ∀ {b : Nat} {t : TokL} {ts ts' : List TokL} {is : List Item} {s : Str}, Tile c t.r ts is b ts' → (∃ e, ts' = [e]) →
      TilesR s t.l (t :: ts) → t.tok ≠ .eof ∧ ∃ u s', s = u ++ s' ∧ t.r = t.l + u.length ∧ t.l < t.r ∧ TilesR s' t.r ts := by
    intro b t ts ts' is s hT he htl
    rcases tiles_pos htl with ⟨t1, rfl, rfl⟩ | ⟨u, s', t1, h2, t5, t6, t7, t8⟩
    · obtain ⟨e, rfl⟩ := he
      exact absurd (hT.not_past rfl) (by simp)
    · have := List.length_pos_iff.mpr t6
      exact ⟨t1, u, s', h2, t5, by omega, t8⟩
  -- the positions behind a literal
  have pos : ∀ {t : TokL} {ts : List TokL} {is : List Item} {src out : Str}, t.l < t.r →
      (∀ p, Pos p → t.l ≤ p → ∃ u ∈ litToks (.lit src out :: is) (t :: ts), u.l = p) →
      ∀ p, Pos p → t.r ≤ p → ∃ u ∈ litToks is ts, u.l = p := by
    intro t ts is src out hlt H p hp hle
    obtain ⟨u, hu, e⟩ := H p hp (by omega)
    simp only [litToks, List.take_succ_cons, List.take_zero, List.tail_cons, List.singleton_append, List.mem_cons] at hu
    rcases hu with rfl | hu
    · omega
    · exact ⟨u, hu, e⟩
  -- the token behind a gap
  have next : ∀ {q : Nat} {ts : List TokL} {is : List Item} {s : Str}, TilesR s q ts → Q (some q) →
      (∀ p, Pos p → q ≤ p → ∃ u ∈ litToks is ts, u.l = p) → (∀ t ∈ ts, E ≤ t.l → t.tok = .eof) →
      ∃ t us, ts = t :: us ∧ MayBegin c Pos t := by
    intro q ts is s htl hq H hEnd
    cases ts with
    | nil => exact htl.elim
    | cons t us =>
      refine ⟨t, us, rfl, ?_⟩
      have hge := tilesR_ge htl t List.mem_cons_self
      rcases hQ q hq with hp | ⟨rfl, _⟩
      · obtain ⟨u, hu, e⟩ := H q hp (Nat.le_refl _)
        rcases List.mem_cons.1 (litToks_sub _ hu) with rfl | hu
        · exact .inl (e ▸ hp)
        · have := tiles_lt htl u hu
          omega
      · exact .inr (.inl (hEnd t List.mem_cons_self hge))
  have hnl : ∀ p, Q (some p) → NlOpt c := fun p h => (hQ p h).elim (hPos p) (·.2)
  induction hE with
  | nil =>
    intro a b ts ts' p gb pre s hT hb hl htl he hso hi hg hp hF H hEnd
    exact ⟨[], .nil, fun t ht => (by cases ht)⟩
  | @lit is src out f f' hE ih =>
    intro a b ts ts' p gb pre s hT hb hl htl he hso hi hg hp hF H hEnd
    cases hT with
    | @lit _ t ts _ _ _ _ hsrc hout hT =>
      obtain ⟨hne, u, s', rfl, t5, hlt, t8⟩ := tok hT he htl
      have hend : Closed out := ends_out hh hout
        (ends_reads ((hso t List.mem_cons_self).1.resolve_left hne) (hso t List.mem_cons_self).2)
      obtain ⟨ms, h1, h2⟩ := ih (p := none) (pre := pre ++ u) (s := s') hT (by simpa using hb) (by simp [hl, t5]) t8 he
        (fun t h => hso t (List.mem_cons_of_mem _ h)) (fun i h => hi i (List.mem_cons_of_mem _ h)) hg.2 (fun h => by cases h)
        (fun h => absurd h hend.fresh) (pos (src := []) (out := []) hlt H) (fun t h => hEnd t (List.mem_cons_of_mem _ h))
      obtain ⟨ms', h3, h4, h5⟩ := lit_mark (src := src) (hp hg.1) (fun hf => by
        obtain ⟨t', us, e, h⟩ := hF hf; cases e; exact h) h1
      refine ⟨ms', h3, fun v hv => ?_⟩
      simp only [litToks, List.take_succ_cons, List.take_zero, List.tail_cons, List.singleton_append, List.mem_cons] at hv
      rcases hv with rfl | hv
      · exact h5
      · exact (h2 v hv).imp id (h4 _)
  | @gap is loc h f f1 f' hs hE ih =>
    intro a b ts ts' p gb pre s hT hb hl htl he hso hi hg hp hF H hEnd
    obtain ⟨k, s', rfl, rfl, hk, htl', hT'⟩ := tile_gap hT htl
    have hf := askStep_fresh hh ha hr hb hk (by rw [hl]) (hi (.gap _ h) List.mem_cons_self) hs
    obtain ⟨ms, h1, h2⟩ := ih (p := some (a + k.length)) (pre := pre ++ k) (s := s') hT' (by simpa using hb) (by simp [hl]) htl' he hso
      (fun i h => hi i (List.mem_cons_of_mem _ h)) hg (fun _ => rfl)
      (fun h => (hf h).elim hF fun ⟨_, hq⟩ => next htl' hq (fun p hp hle => H p hp (by omega)) hEnd)
      (fun p hp hle => H p hp (by omega)) hEnd
    exact ⟨ms, .gap (hs.plain fun _ h => hnl _ h).stepAt (.inl trivial) h1, h2⟩
  | @brace is h f f1 f' hs hE ih =>
    intro a b ts ts' p gb pre s hT hb hl htl he hso hi hg hp hF H hEnd
    cases hT with
    | extra hT =>
    cases hT with
    | @lit _ t ts _ _ _ _ hsrc hout hT =>
      obtain ⟨hne, u, s', rfl, t5, hlt, t8⟩ := tok hT he htl
      have hc : t.tok = .openCurly := by
        obtain ⟨n, hn⟩ := (hso t List.mem_cons_self).1.resolve_left hne
        exact reads_curly hn (.inl rfl) hsrc.symm
      have hend : Closed ['{'] := ⟨'{', rfl, by decide, by decide, by decide⟩
      have hf := askStep_fresh hh ha hr (pre := []) (k := []) (rest := env.buf) (by simp) (.inl .nil) rfl
        (hi (.extra h) List.mem_cons_self) hs
      obtain ⟨ms, h1, h2⟩ := ih (p := none) (pre := pre ++ u) (s := s') hT (by simpa using hb) (by simp [hl, t5]) t8 he
        (fun t h => hso t (List.mem_cons_of_mem _ h))
        (fun i h => hi i (List.mem_cons_of_mem _ (List.mem_cons_of_mem _ h))) hg.2 (fun h => by cases h)
        (fun h => absurd h hend.fresh) (pos (src := []) (out := []) hlt H) (fun t h => hEnd t (List.mem_cons_of_mem _ h))
      obtain ⟨ms', h3, h4, h5⟩ := lit_mark (src := ['{']) (Pos := Pos) (hp hg.1) (fun h => by
        rcases hf h with h | ⟨_, h⟩
        · obtain ⟨t', us, e, h⟩ := hF h; cases e; exact h
        · exact .inr (.inr ⟨hQn h, hc⟩)) h1
      refine ⟨ms', .extra (hs.plain fun _ h => .inr (.inr (.inl (hQn h)))) h3, fun v hv => ?_⟩
      simp only [litToks, List.take_succ_cons, List.take_zero, List.tail_cons, List.singleton_append, List.mem_cons] at hv
      rcases hv with rfl | hv
      · exact h5
      · exact (h2 v hv).imp id (h4 _)
  | @post is loc isF src out f f1 f' bb hs hb' hE ih =>
    intro a b ts ts' p gb pre s hT hb hl htl he hso hi hg hp hF H hEnd
    obtain ⟨k, s', rfl, rfl, hk, htl', hT'⟩ := tile_gap hT htl
    have hf : Fresh f1 → Fresh f := fun h => (askStep_fresh hh ha hr hb hk (by rw [hl]) (hi (.gap _ []) List.mem_cons_self) hs h).elim
      id fun ⟨_, h⟩ => h.elim
    have fin : ∀ {ms : List (Nat × Mk)}, LEmits True env c none is ms (if bb then f1 ++ out else f1) f' →
        LEmits True env c p (.gap ⟨a, a + k.length⟩ [] :: .trail isF src out :: is) ms f f' :=
      fun h => .gap (hs.plain fun _ h => h.elim).stepAt (.inl trivial) (.trail bb hb' h)
    generalize hq : a + k.length = q at hT' htl'
    cases hT' with
    | trailNone hx hT =>
      obtain ⟨ms, h1, h2⟩ := ih (p := none) (pre := pre ++ k) (s := s') hT (by simpa using hb) (by simp [hl, hq]) htl' he hso
        (fun i h => hi i (List.mem_cons_of_mem _ (List.mem_cons_of_mem _ h))) hg.2 (fun h => by cases h) (fun h => by
          refine hF (hf ?_)
          cases bb with
          | false => exact h
          | true =>
            cases isF with
            | false => simp [TrailOk] at hb'
            | true =>
              have := (hx rfl).1
              simp only [if_true] at h
              cases hc : c.str .fieldSeparator with
              | none => rw [hc] at this; rw [this] at h; simpa using h
              | some s =>
                rw [hc] at this
                rw [this] at h
                exact absurd h (ends_sep hh hc).fresh)
        (fun p hp hle => H p hp (by omega)) hEnd
      exact ⟨ms, hq ▸ fin h1, h2⟩
    | @trail _ t ts _ _ _ hsep hout _ hT =>
      obtain ⟨hne, u, s'', rfl, t5, hlt, t8⟩ := tok hT he htl'
      have hlt' : ∀ {ts : List TokL} {loc : Loc}, litToks (.gap loc [] :: .trail true (spell t.tok) out :: is) (t :: ts) = litToks is ts :=
        litToks_trail (isFieldSep_spell hsep)
      obtain ⟨ms, h1, h2⟩ := ih (p := none) (pre := pre ++ k ++ u) (s := s'') hT (by simpa using hb) (by simp only [List.length_append, hl]; omega) t8 he
        (fun t h => hso t (List.mem_cons_of_mem _ h))
        (fun i h => hi i (List.mem_cons_of_mem _ (List.mem_cons_of_mem _ h))) hg.2 (fun h => by cases h) (fun h => by
          exfalso
          cases bb with
          | true =>
            simp only [if_true] at h
            have : Closed out := by
              cases hc : c.str .fieldSeparator with
              | none =>
                rw [hc] at hout
                rw [hout]
                exact ends_reads ((hso t List.mem_cons_self).1.resolve_left hne) (hso t List.mem_cons_self).2
              | some s =>
                rw [hc] at hout
                rw [hout]
                exact ends_sep hh hc
            exact this.fresh h
          | false =>
            obtain ⟨t', us, e, hG⟩ := hF (hf h)
            cases e
            rcases hG with hG | hG | ⟨_, hG⟩
            · obtain ⟨v, hv, e⟩ := H _ hG (by omega)
              rw [hlt'] at hv
              have := tilesR_ge t8 v (litToks_sub _ hv)
              omega
            · exact hne hG
            · rw [hG] at hsep; cases hsep)
        (fun p hp hle => by
          obtain ⟨v, hv, e⟩ := H p hp (by omega)
          rw [hlt'] at hv
          exact ⟨v, hv, e⟩) (fun t h => hEnd t (List.mem_cons_of_mem _ h))
      exact ⟨ms, hq ▸ fin h1, fun v hv => h2 v (by rw [hlt'] at hv; exact hv)⟩
  | @emptyTable is loc h f f1 f' hs hE ih =>
    intro a b ts ts' p gb pre s hT hb hl htl he hso hi hg hp hF H hEnd
    cases hT with
    | @lit _ t ts _ _ _ _ hsrc hout hT =>
      obtain ⟨hne, u, s', rfl, t5, hlt, t8⟩ := tok hT he htl
      obtain ⟨k, s'', rfl, rfl, hk, htl', hT'⟩ := tile_gap hT t8
      have hend : Closed ['{'] := ⟨'{', rfl, by decide, by decide, by decide⟩
      have hend' : Closed ['}'] := ⟨'}', rfl, by decide, by decide, by decide⟩
      have hbuf : env.buf = (pre ++ u) ++ (k ++ s'') := by simpa using hb
      have hlen : (pre ++ u).length = t.r := by simp [hl, t5]
      have hx : HintOk False h := hi (.gap _ h) (List.mem_cons_of_mem _ List.mem_cons_self)
      have hf : ¬ Fresh f1 := by
        intro hF1
        rcases askStep_fresh hh ha hr hbuf hk (by rw [hlen]) hx hs hF1 with h | ⟨lvl, x, h1, h2⟩
        · exact hend.fresh h
        · obtain ⟨K, es', rfl, hw⟩ := commentHint_wrote hh ha (.inl hr) hbuf hk (fun hR => hR.nl.elim) hlen.symm (by rw [hlen]) hx h1
          have := hw.nl id
          simp only [hasNewlines, List.nil_append] at h2
          exact this (by simpa using h2)
      generalize hq : t.r + k.length = q at hT' htl'
      cases hT' with
      | @lit _ t2 ts _ _ _ _ hsrc2 hout2 hT2 =>
        obtain ⟨hne2, u2, s3, rfl, t52, hlt2, t82⟩ := tok hT2 he htl'
        obtain ⟨ms, h1, h2⟩ := ih (p := none) (pre := pre ++ u ++ k ++ u2) (s := s3) hT2 (by simpa using hb) (by
            simp only [List.length_append, hl]; omega) t82 he
          (fun t h => hso t (List.mem_cons_of_mem _ (List.mem_cons_of_mem _ h)))
          (fun i h => hi i (List.mem_cons_of_mem _ (List.mem_cons_of_mem _ (List.mem_cons_of_mem _ h)))) hg.2.2
          (fun h => by cases h) (fun h => absurd h hend'.fresh)
          (pos (src := ['}']) (out := ['}']) hlt2 (fun p hp hle => pos (src := []) (out := []) hlt H p hp (by omega))) (fun t h => hEnd t (List.mem_cons_of_mem _ (List.mem_cons_of_mem _ h)))
        obtain ⟨ms', h3, h4, h5⟩ := lit_mark (p := some t2.l) (src := ['}']) (Pos := Pos) rfl (fun h => absurd h hf) h1
        have hgap : GapStep env c ⟨t.r, t2.l⟩ h (f ++ ['{']) f1 := by
          rw [hq] at hs
          obtain ⟨p, f0, g, lvl, b, h1, h2, h3, h4, h5⟩ := hs
          exact ⟨p, f0, g, lvl, b, h1, h2, h3, fun e => .inr (h4 e), h5⟩
        obtain ⟨ms'', h6, h7, h8⟩ := lit_mark (src := ['{']) (hp hg.1) (fun hf => by
          obtain ⟨t', us, e, h⟩ := hF hf; cases e; exact h) (LEmits.gap (p := none) (loc := ⟨t.r, t2.l⟩) (h := h) ⟨hgap, .inr ⟨by simp, _, rfl⟩⟩ (.inl trivial) h3)
        refine ⟨ms'', h6, fun v hv => ?_⟩
        simp only [litToks, List.take_succ_cons, List.take_zero, List.tail_cons, List.singleton_append, List.mem_cons] at hv
        rcases hv with rfl | rfl | hv
        · exact h8
        · exact h5.imp id (h7 _)
        · exact (h2 v hv).imp id fun h => h7 _ (h4 _ h)

end Luafmt
