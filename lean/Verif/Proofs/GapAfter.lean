import Verif.Spec.CommentLines
import Verif.Proofs.GapExact

/-
What stands behind the last comment of a gap.
-/
namespace Luafmt
open Spec

variable {c : Config}

theorem blank_bracket {s : Str} (h : Blank s) : ']' ∉ s := by
  intro hm
  have := h _ hm
  revert this
  decide

theorem afterComment_blank (hh : BlankHints c) : Blank (afterComment c) := by
  unfold afterComment
  cases hs : c.str .hintAfterMultilineComment with
  | none => intro _ h; cases h
  | some s => exact hh.hints .hintAfterMultilineComment (by decide) s hs

/-- The last `]` of a text. -/
theorem last_bracket {y z : Char} {a b u v : Str} (h : a ++ y :: b = u ++ z :: v) (hy : y ∉ v) (hyz : y ≠ z) :
    ∃ d, b = d ++ z :: v := by
  rcases List.append_eq_append_iff.mp h with ⟨d, h1, h2⟩ | ⟨d, h1, h2⟩
  · cases d with
    | nil => simp at h2; exact absurd h2.1 hyz
    | cons w d =>
      simp only [List.cons_append, List.cons.injEq] at h2
      exact ⟨d, h2.2⟩
  · cases d with
    | nil => simp at h2; exact absurd h2.1.symm hyz
    | cons w d =>
      simp only [List.cons_append, List.cons.injEq] at h2
      exact absurd (by rw [h2.2]; simp) hy

theorem last_bracket_eq {y : Char} {a b u v : Str} (h : a ++ y :: b = u ++ y :: v) (hb : y ∉ b) (hv : y ∉ v) : b = v := by
  rcases List.append_eq_append_iff.mp h with ⟨d, h1, h2⟩ | ⟨d, h1, h2⟩
  · cases d with
    | nil => simp at h2; exact h2
    | cons w d =>
      simp only [List.cons_append, List.cons.injEq] at h2
      exact absurd (by rw [h2.2]; simp) hb
  · cases d with
    | nil => simp at h2; exact h2.symm
    | cons w d =>
      simp only [List.cons_append, List.cons.injEq] at h2
      exact absurd (by rw [h2.2]; simp) hv

theorem last_bracket_left {y : Char} {a b g k : Str} (h : g ++ k = a ++ y :: b) (hk : y ∉ k) : ∃ b0, g = a ++ y :: b0 ∧ b = b0 ++ k := by
  rcases List.append_eq_append_iff.mp h with ⟨d, h1, h2⟩ | ⟨d, h1, h2⟩
  · exact absurd (by rw [h2]; simp) hk
  · cases d with
    | nil =>
      simp at h2
      exact absurd (by rw [← h2]; simp) hk
    | cons w d =>
      simp only [List.cons_append, List.cons.injEq] at h2
      exact ⟨d, by rw [h1, h2.1], h2.2⟩

theorem last_bracket_right {y : Char} {a b g k : Str} (h : g ++ k = a ++ y :: b) (hk : y ∈ k) (hb : y ∉ b) : ∃ a', k = a' ++ y :: b := by
  rcases List.append_eq_append_iff.mp h with ⟨d, h1, h2⟩ | ⟨d, h1, h2⟩
  · exact ⟨d, h2⟩
  · cases d with
    | nil => exact ⟨[], by simpa using h2.symm⟩
    | cons w d =>
      simp only [List.cons_append, List.cons.injEq] at h2
      exact absurd (by rw [h2.2]; simp [hk]) hb

/-- The text ends with a newline and blanks. -/
def NlEnd (s : Str) : Prop := ∃ u v, s = u ++ '\n' :: v ∧ ']' ∉ v

theorem NlEnd.vacuous {s a b : Str} (h : NlEnd s) (he : s = a ++ ']' :: b) : '\n' ∈ b := by
  obtain ⟨u, v, h, hv⟩ := h
  obtain ⟨d, hd⟩ := last_bracket (he.symm.trans h) hv (by decide)
  rw [hd]
  simp

theorem nlEnd_last {s : Str} (h : s.getLast? = some '\n') {v : Str} (hv : ']' ∉ v) : NlEnd (s ++ v) := by
  have := getLast?_split h
  exact ⟨s.dropLast, v, by conv => lhs; rw [this]
                           simp, hv⟩

theorem NlEff.nlEnd {K f r ind : Str} (h : NlEff K f r ind) (hi : ']' ∉ ind) : NlEnd r := by
  obtain ⟨t, b, _, _, h⟩ := h
  rcases h with ⟨_, ⟨h1, h2⟩ | h⟩ | ⟨_, a, d, _, _, _, ⟨h1, h2⟩ | h⟩
  · rw [h2, ← List.append_assoc]
    refine nlEnd_last ?_ hi
    rw [List.getLast?_append, h1]
    rfl
  · exact ⟨f ++ t, ind, by simp [h], hi⟩
  · rw [h2]
    exact nlEnd_last h1 hi
  · exact ⟨a, ind, h, hi⟩

/-- The text ends with a newline and some levels of indentation. -/
def NlInd (c : Config) (s : Str) : Prop := ∃ u k, s = u ++ '\n' :: indentation c k

theorem NlInd.nlEnd (hh : BlankHints c) {s : Str} (h : NlInd c s) : NlEnd s := by
  obtain ⟨u, k, h⟩ := h
  exact ⟨u, _, h, blank_bracket (indentation_blank hh k)⟩

theorem nlInd_last {s : Str} (h : s.getLast? = some '\n') (k : Nat) : NlInd c (s ++ indentation c k) := by
  have := getLast?_split h
  exact ⟨s.dropLast, k, by conv => lhs; rw [this]
                           simp⟩

theorem NlEff.nlInd {K f r : Str} {lvl : Int} (h : NlEff K f r (indentText c lvl)) : NlInd c r := by
  rw [indentText_level] at h
  obtain ⟨t, b, _, _, h⟩ := h
  rcases h with ⟨_, ⟨h1, h2⟩ | h⟩ | ⟨_, a, d, _, _, _, ⟨h1, h2⟩ | h⟩
  · rw [h2, ← List.append_assoc]
    refine nlInd_last ?_ _
    rw [List.getLast?_append, h1]
    rfl
  · exact ⟨f ++ t, lvl.toNat, by rw [h]; simp⟩
  · rw [h2]
    exact nlInd_last h1 _
  · exact ⟨a, _, h⟩

theorem indentation_nl (hl : LineHints c) (k : Nat) : '\n' ∉ indentation c k := by
  induction k with
  | zero => simp [indentation]
  | succ k ih =>
    have := hl.indent
    simp only [indentation, List.mem_append]
    exact fun h => h.elim this ih

/-- The text `k` behind `x` is empty, or ends with a comment, or with a newline and indentation. -/
def CEnd (c : Config) (x : Char) (f : Str) : Prop := ∃ k, f = x :: k ∧ (k = [] ∨ k.getLast? = some ']' ∨ NlInd c f)

theorem ctokText_close (hr : Regular c) (t : CTok) :
    (ctokText c t = [] ∧ ctokHint c t = []) ∨ (ctokText c t).getLast? = some '\n' ∨ (ctokText c t).getLast? = some ']' := by
  cases t with
  | newLine =>
    simp only [ctokText]
    split
    · exact .inl ⟨rfl, rfl⟩
    · exact .inr (.inl rfl)
  | oneLine s =>
    simp only [ctokText]
    split
    · next h =>
      split
      · exact .inl ⟨rfl, hr.comment h⟩
      · exact .inr (.inl rfl)
    · right; left
      split
      · split
        · rfl
        · exact List.getLast?_concat
      · exact List.getLast?_concat
  | multiLine l s =>
    simp only [ctokText]
    split
    · next h => exact .inl ⟨rfl, hr.comment h⟩
    · exact .inr (.inr List.getLast?_concat)

/-- Something is written that ends like a comment or a newline. -/
theorem CEnd.put {x : Char} {k g : Str} (h : g.getLast? = some '\n' ∨ g.getLast? = some ']') : CEnd c x (x :: k ++ g) := by
  refine ⟨k ++ g, rfl, .inr ?_⟩
  rcases h with h | h
  · right
    have : NlInd c (x :: k ++ g ++ indentation c 0) := nlInd_last (by rw [List.getLast?_append, h]; rfl) 0
    rwa [show indentation c 0 = [] from rfl, List.append_nil] at this
  · left
    rw [List.getLast?_append, h]
    rfl

/-- A gap inside a comment block. -/
theorem ifNewLine_end (hh : BlankHints c) (hr : Regular c) {e : CEnv} (he : e.range = none) {x : Char} {nl : Bool} {loc : Loc}
    {h f r : Str} (hf : CEnd c x f) (hw : ifNewLine c e.lvl nl (spaceHint e c loc) h f = .ok r) :
    r = f ++ h ∨ CEnd c x r := by
  cases nl with
  | false =>
    simp only [ifNewLine, Bool.false_eq_true, if_false] at hw
    exact .inl (spaceHint_reg hr he hw)
  | true =>
    right
    obtain ⟨k, rfl, hk⟩ := hf
    obtain ⟨K, _, hE⟩ := ifNewLine_eff hw
    have hn := hE.nlInd
    suffices ∃ k, r = x :: k by
      obtain ⟨k, rfl⟩ := this
      exact ⟨k, rfl, .inr (.inr hn)⟩
    obtain ⟨t, b, _, _, h0⟩ := hE
    rcases h0 with ⟨_, ⟨_, h⟩ | h⟩ | ⟨_, a, d, h1, _, h3, h4⟩
    · exact ⟨_, h⟩
    · exact ⟨_, h⟩
    · have ha : a ≠ [] := by
        intro e
        subst e
        by_cases hd : d = []
        · subst hd; cases h1
        · exact h3 hd rfl
      obtain ⟨y, a, rfl⟩ := List.exists_cons_of_ne_nil ha
      cases h1
      rcases h4 with ⟨_, rfl⟩ | rfl <;> exact ⟨_, rfl⟩

theorem cgap_end (hh : BlankHints c) (hr : Regular c) {e : CEnv} (he : e.range = none) (hp : e.env.posRange = none) {x : Char}
    {nl : Bool} {loc : Loc} {h f r : Str} (hf : CEnd c x f) (hw : cgap e c nl loc h f = .ok r) : r = f ++ h ∨ CEnd c x r := by
  unfold cgap at hw
  rw [hp, if_neg (by simp [outOfRange])] at hw
  exact ifNewLine_end hh hr he hf hw

theorem crunRest_end (hh : BlankHints c) (hr : Regular c) {e : CEnv} (he : e.range = none) (hp : e.env.posRange = none) {x : Char}
    {ic : Bool} : ∀ {ts : List (Loc × CTokL)} {f r : Str}, CEnd c x f → crunRest e c ic ts f = .ok r → CEnd c x r
  | [], f, r, hf, hw => by cases hw; exact hf
  | (gap, t) :: ts, f, r, hf, hw => by
    simp only [crunRest, Res.bind_eq_ok] at hw
    obtain ⟨f1, h1, f2, h2, h3⟩ := hw
    have h2 := ctokWrite_reg he h2
    refine crunRest_end hh hr he hp ?_ h3
    rw [h2]
    have hg := cgap_end hh hr he hp hf h1
    rcases ctokText_close hr t.tok with ⟨e1, e2⟩ | e1
    · rw [e1, List.append_nil]
      rw [e2, List.append_nil] at hg
      rcases hg with rfl | hg
      · exact hf
      · exact hg
    · rcases hg with rfl | ⟨k, rfl, _⟩
      · obtain ⟨k, rfl, _⟩ := hf
        rw [List.cons_append]
        exact .put e1
      · exact .put e1

theorem crunWrite_end (hh : BlankHints c) (hr : Regular c) {e : CEnv} (he : e.range = none) (hp : e.env.posRange = none) {x : Char}
    {ru : CRun} {f r : Str} (hf : CEnd c x f) (hw : crunWrite e c ru f = .ok r) : CEnd c x r := by
  unfold crunWrite at hw
  rw [he, if_neg (by simp [outOfRange])] at hw
  split at hw
  · cases hw; exact hf
  · next gap t ts _ =>
    simp only [Res.bind_eq_ok] at hw
    obtain ⟨f1, h1, f2, h2, h3⟩ := hw
    simp only [ifNewLine, Bool.false_eq_true, if_false] at h1
    have h1 := spaceHint_reg hr he h1
    rw [List.append_nil] at h1
    subst h1
    refine crunRest_end hh hr he hp ?_ h3
    rw [ctokWrite_reg he h2]
    rcases ctokText_close hr t.tok with ⟨e1, _⟩ | e1
    · rw [e1, List.append_nil]; exact hf
    · obtain ⟨k, rfl, _⟩ := hf
      exact .put e1

theorem cvariantRest_end (hh : BlankHints c) (hr : Regular c) {e : CEnv} (he : e.range = none) (hp : e.env.posRange = none) {x : Char} :
    ∀ {rs : List (Loc × CRun)} {f r : Str}, CEnd c x f → cvariantRest e c rs f = .ok r → CEnd c x r
  | [], f, r, hf, hw => by cases hw; exact hf
  | (gap, ru) :: rs, f, r, hf, hw => by
    simp only [cvariantRest, Res.bind_eq_ok] at hw
    obtain ⟨f1, h1, f2, h2, h3⟩ := hw
    refine cvariantRest_end hh hr he hp (crunWrite_end hh hr he hp ?_ h2) h3
    rcases cgap_end hh hr he hp hf h1 with rfl | h
    · simpa using hf
    · exact h

theorem cchunkWrite_end (hh : BlankHints c) (hr : Regular c) {e : CEnv} (he : e.range = none) (hp : e.env.posRange = none) {x : Char}
    {ch : CChunk} {r : Str} (hw : cchunkWrite e c ch [x] = .ok r) : CEnd c x r := by
  unfold cchunkWrite at hw
  rw [he, if_neg (by simp [outOfRange])] at hw
  simp only [Res.bind_eq_ok] at hw
  obtain ⟨f1, h1, f2, h2, h3⟩ := hw
  rw [spaceHint_reg hr he h3, List.append_nil]
  have hf : CEnd c x f1 := by
    rw [spaceHint_reg hr he h1, List.append_nil]
    exact ⟨[], rfl, .inl rfl⟩
  unfold cvariantWrite at h2
  rw [he, if_neg (by simp [outOfRange])] at h2
  simp only at h2
  rcases ite_ok h2 with hw | hw
  · cases hw; exact hf
  · generalize ch.runs = rs at hw
    cases rs with
    | nil => cases hw; exact hf
    | cons p rs =>
      obtain ⟨gap, ru⟩ := p
      simp only [Res.bind_eq_ok] at hw
      obtain ⟨f1, h1, f2, h2, h3⟩ := hw
      refine cvariantRest_end hh hr he hp (crunWrite_end hh hr he hp ?_ h2) h3
      rcases ifNewLine_end hh hr he hf h1 with rfl | h
      · simpa using hf
      · exact h

/-- The text of a gap is its hint; or it ends with a comment and its hint, or with a newline and indentation. -/
theorem commentHint_end (hh : BlankHints c) (hr : Regular c) {env : Env} (hp : env.posRange = none) {lvl : Int} {loc : Loc} {h f r : Str}
    (hw : commentHint env c lvl loc h f = .ok r) : ∃ k, r = f ++ k ∧ (k = h ∨
      ((∀ a b, k = a ++ ']' :: b → ']' ∉ b → '\n' ∉ b → b = afterComment c) ∧ (lastOr ' ' f ≠ '\n' → ']' ∉ k → '\n' ∈ k)) ∧
      (LineHints c → (∀ a b, k = a ++ '\n' :: b → '\n' ∉ b → ']' ∉ b → ∃ j, b = indentation c j) ∧
        ('\n' ∉ k → ']' ∉ k → ∃ j, k = indentation c j))) := by
  unfold commentHint at hw
  rw [hp, if_neg (by simp [outOfRange])] at hw
  simp only [Res.bind_eq_ok] at hw
  obtain ⟨cbuf, _, hw⟩ := hw
  split at hw
  · cases hw
  · simp only [Res.bind_eq_ok] at hw
    obtain ⟨full, h1, hw⟩ := hw
    obtain ⟨k, rfl, hk⟩ := cchunkWrite_end hh hr rfl hp h1
    split at hw
    · cases hw
    · next blk hb =>
      rw [dropBytes_char hb] at hw
      cases hw
      refine ⟨_, rfl, ?_⟩
      unfold commentBlockText
      by_cases hk0 : k = []
      · left
        rw [if_pos hk0, if_pos hr.zero]
      · right
        rw [if_neg hk0]
        have hpre : ']' ∉ (if k.head? = some '-' then (c.str .hintBeforeComment).getD [] else []) := by
          split
          · exact blank_bracket (beforeComment_blank hh)
          · simp
        have hpre' : k.head? = some '-' ∨ (if k.head? = some '-' then (c.str .hintBeforeComment).getD [] else []) = [] := by
          split
          · exact .inl (by assumption)
          · exact .inr rfl
        generalize (if k.head? = some '-' then (c.str .hintBeforeComment).getD [] else []) = pre at hpre hpre'
        by_cases hl : k.getLast? = some ']'
        · rw [if_pos hl]
          have hs := getLast?_split hl
          have e' : pre ++ k ++ (c.str .hintAfterMultilineComment).getD [] = (pre ++ k.dropLast) ++ ']' :: afterComment c := by
            conv => lhs; rw [hs]
            simp [afterComment]
          refine ⟨⟨fun a b e hb _ => ?_, fun _ hn => ?_⟩, fun hL => ⟨fun a b e hb hc => ?_, fun _ hc => ?_⟩⟩
          · exact last_bracket_eq (e.symm.trans e') hb (blank_bracket (afterComment_blank hh))
          · exact absurd (by rw [hs]; simp) hn
          · obtain ⟨d, hd⟩ := last_bracket (e'.symm.trans e) hc (by decide)
            exact absurd (by rw [hd]; simp) hL.after
          · exact absurd (by rw [hs]; simp) hc
        · rw [if_neg hl, List.append_nil]
          have hn := (hk.resolve_left hk0).resolve_left hl
          have hi : LineHints c → '\n' ∉ k → ∃ j, pre ++ k = indentation c j := by
            intro hL hnk
            obtain ⟨u, j, hu⟩ := hn
            cases u with
            | cons y u =>
              simp only [List.cons_append, List.cons.injEq] at hu
              exact absurd (by rw [hu.2]; simp) hnk
            | nil =>
              simp only [List.nil_append, List.cons.injEq] at hu
              refine ⟨j, ?_⟩
              rcases hpre' with h | h
              · rw [hu.2] at h
                have := indentation_blank hh j '-' (List.mem_of_mem_head? h)
                exact absurd this (by decide)
              · rw [h, hu.2]; rfl
          refine ⟨⟨fun a b e hb hnb => ?_, fun hx _ => ?_⟩, fun hL => ⟨fun a b e hb _ => ?_, fun h _ => ?_⟩⟩
          · have hm : ']' ∈ k := by
              have : ']' ∈ pre ++ k := by rw [e]; simp
              exact (List.mem_append.mp this).resolve_left hpre
            obtain ⟨a', e'⟩ := last_bracket_right e hm hb
            exact absurd ((hn.nlEnd hh).vacuous (a := (f.getLast?.getD ' ') :: a') (by rw [e']; rfl)) hnb
          · obtain ⟨u, v, hu⟩ := hn
            cases u with
            | nil =>
              simp only [List.nil_append, List.cons.injEq] at hu
              exact absurd hu.1 hx
            | cons y u =>
              simp only [List.cons_append, List.cons.injEq] at hu
              rw [hu.2]
              simp
          · by_cases hnk : '\n' ∈ k
            · obtain ⟨a', e'⟩ := last_bracket_right e hnk hb
              obtain ⟨u, j, hu⟩ := hn
              refine ⟨j, last_bracket_eq (y := '\n') (a := (f.getLast?.getD ' ') :: a') (u := u) ?_ hb (indentation_nl hL j)⟩
              rw [← hu, e']; rfl
            · obtain ⟨j, hj⟩ := hi hL hnk
              exact absurd (by rw [← hj, e]; simp) (indentation_nl hL j)
          · exact hi hL fun h' => h (by simp [h'])

/-- Behind the last comment of the gap `g`, on its line, there is the hint for it and one of the texts of `S`; behind the last
newline, where no comment follows, there are indentation and one of the texts of `S`. Nothing is said if `W`. -/
def TailIn (W : Prop) (c : Config) (S : List Str) (g : Str) : Prop :=
  ¬ W → Regular c → (∀ a b, g = a ++ ']' :: b → ']' ∉ b → '\n' ∉ b → ∃ e ∈ S, b = afterComment c ++ e) ∧
    (LineHints c → ∀ a b, g = a ++ '\n' :: b → '\n' ∉ b → ']' ∉ b → ∃ e ∈ S, ∃ k, b = indentation c k ++ e)

theorem TailIn.nil {W : Prop} {S : List Str} : TailIn W c S [] := fun _ _ => ⟨fun a b h => by simp at h, fun _ a b h => by simp at h⟩

theorem gapStep_tail {W : Prop} (hh : BlankHints c) {env : Env} (hr : env.posRange = none ∨ c.lineRange ≠ none)
    {loc : Loc} {h P g g' : Str} {S : List Str} (hb : Blank h) (hsh : Regular c → Short c h) (h0 : TailIn W c S g)
    (hs : GapStep env c loc h (P ++ g) (P ++ g')) :
    TailIn W c ([] :: S.map (· ++ h)) g' := by
  intro hW hreg
  have hp : env.posRange = none := hr.resolve_right fun h => h hreg.range
  have hnh : LineHints c → '\n' ∉ h := fun hL => by
    rcases hsh hreg hL.narrow with rfl | rfl <;> decide
  obtain ⟨p0, f0, g0, lvl, bb, h1, h2, h3, _, _⟩ := hs
  cases bb with
  | true =>
    obtain ⟨K, _, hE⟩ := ifNewLine_eff h3
    have hn := (hE.lift p0).nlInd
    rw [← h2] at hn
    refine ⟨fun a b he hnb hnl => ?_, fun hL a b he hnl _ => ?_⟩
    · rw [he, ← List.append_assoc] at hn
      exact absurd ((hn.nlEnd hh).vacuous rfl) hnl
    · obtain ⟨u, j, hu⟩ := hn
      rw [he, ← List.append_assoc] at hu
      exact ⟨[], by simp, j, by rw [List.append_nil]; exact last_bracket_eq hu hnl (indentation_nl hL j)⟩
  | false =>
    simp only [ifNewLine, Bool.false_eq_true, if_false] at h3
    have plain : g' = g ++ h → TailIn W c ([] :: S.map (· ++ h)) g' := by
      intro e _ _
      refine ⟨fun a b he hnb hnl => ?_, fun hL a b he hnl hnb => ?_⟩
      · obtain ⟨b0, e1, e2⟩ := last_bracket_left (e.symm.trans he) (blank_bracket hb)
        obtain ⟨x, hx, hx'⟩ := (h0 hW hreg).1 a b0 e1 (fun h => hnb (by rw [e2]; simp [h])) (fun h => hnl (by rw [e2]; simp [h]))
        refine ⟨x ++ h, List.mem_cons_of_mem _ (List.mem_map.mpr ⟨x, hx, rfl⟩), ?_⟩
        rw [e2, hx', List.append_assoc]
      · obtain ⟨b0, e1, e2⟩ := last_bracket_left (e.symm.trans he) (hnh hL)
        obtain ⟨x, hx, k, hx'⟩ := (h0 hW hreg).2 hL a b0 e1 (fun h => hnl (by rw [e2]; simp [h])) (fun h => hnb (by rw [e2]; simp [h]))
        refine ⟨x ++ h, List.mem_cons_of_mem _ (List.mem_map.mpr ⟨x, hx, rfl⟩), k, ?_⟩
        rw [e2, hx', List.append_assoc]
    have hpre : ∀ k, g0 = f0 ++ k → g' = g ++ k := by
      intro k e
      rw [e, ← List.append_assoc, ← h1, List.append_assoc] at h2
      exact List.append_cancel_left h2
    by_cases hl : loc.l = loc.r
    · exact plain (hpre _ (commentHint_here hreg hp hl h3)) hW hreg
    · obtain ⟨k, ek, hk⟩ := commentHint_end hh hreg hp h3
      have e := hpre _ ek
      rcases hk with rfl | ⟨⟨hk1, hk2⟩, hk3⟩
      · exact plain e hW hreg
      · -- what stands before the gap, where it does not end with a newline
        have hlast : ∀ {y : Char} {a b0 : Str}, g = a ++ y :: b0 → '\n' ∉ y :: b0 → lastOr ' ' f0 ≠ '\n' := by
          intro y a b0 e1 hn0
          have hlast : lastOr ' ' (P ++ g) ≠ '\n' := by
            rw [e1]
            unfold lastOr
            rw [List.getLast?_append, List.getLast?_append]
            intro hq
            rw [List.getLast?_cons] at hq
            simp only [Option.some_or, Option.getD_some] at hq
            cases hb0 : b0.getLast? with
            | none => rw [hb0] at hq; simp only [Option.getD_none] at hq; exact hn0 (by simp [hq])
            | some y =>
              rw [hb0] at hq
              simp only [Option.getD_some] at hq
              subst hq
              exact hn0 (List.mem_cons_of_mem _ (List.mem_of_getLast? hb0))
          intro hq
          refine hlast ?_
          rw [h1]
          unfold lastOr at hq ⊢
          rw [List.getLast?_append]
          cases hf : f0.getLast? with
          | none => rw [hf] at hq; cases hq
          | some y => rw [hf] at hq; exact hq
        refine ⟨fun a b he hnb hnl => ?_, fun hL a b he hnl hnb => ?_⟩
        · by_cases hm : ']' ∈ k
          · obtain ⟨a', e'⟩ := last_bracket_right (e.symm.trans he) hm hnb
            refine ⟨[], by simp, ?_⟩
            rw [List.append_nil]
            exact hk1 a' b e' hnb hnl
          · exfalso
            obtain ⟨b0, e1, e2⟩ := last_bracket_left (e.symm.trans he) hm
            have hn0 : '\n' ∉ b0 := fun h => hnl (by rw [e2]; simp [h])
            refine hnl ?_
            rw [e2]
            exact List.mem_append_right _ (hk2 (hlast e1 (by simp [hn0])) hm)
        · refine ⟨[], by simp, ?_⟩
          simp only [List.append_nil]
          by_cases hm : '\n' ∈ k
          · obtain ⟨a', e'⟩ := last_bracket_right (e.symm.trans he) hm hnl
            exact (hk3 hL).1 a' b e' hnl hnb
          · obtain ⟨b0, e1, e2⟩ := last_bracket_left (e.symm.trans he) hm
            have hmk : ']' ∉ k := fun h => hnb (by rw [e2]; simp [h])
            cases b0 with
            | nil =>
              obtain ⟨j, hj⟩ := (hk3 hL).2 hm hmk
              exact ⟨j, by rw [e2, hj]; rfl⟩
            | cons y b0 =>
              refine absurd (hk2 (hlast (y := y) (a := a ++ ['\n']) (b0 := b0) (by rw [e1]; simp) ?_) hmk) hm
              exact fun h => hnl (by rw [e2, List.cons_append]; exact List.mem_append_left k h)

end Luafmt
