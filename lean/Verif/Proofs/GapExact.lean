import Verif.Proofs.GapSep
import Verif.Proofs.Marks
import Verif.Spec.Spacing

/-
The text written for a gap without a newline and without a comment is the hint of the gap (`Regular` configurations).
-/
namespace Luafmt
open Spec

variable {c : Config} {NL : Prop}

/-- Behind `x` nothing is written, or a newline or a comment. -/
def CInv (x : Char) (f : Str) : Prop := ∃ k, f = x :: k ∧ (k = [] ∨ '\n' ∈ k ∨ '-' ∈ k)

theorem CInv.add {x : Char} {f g : Str} (h : CInv x f) (hg : g = [] ∨ '\n' ∈ g ∨ '-' ∈ g) : CInv x (f ++ g) := by
  obtain ⟨k, rfl, h⟩ := h
  refine ⟨k ++ g, rfl, ?_⟩
  rcases h with rfl | h | h
  · simpa using hg
  · exact .inr (.inl (by simp [h]))
  · exact .inr (.inr (by simp [h]))

theorem CInv.cons {x : Char} {f : Str} (h : CInv x f) : ∃ k, f = x :: k := by
  obtain ⟨k, h, _⟩ := h
  exact ⟨k, h⟩

theorem mem_of_last {a : Str} {x : Char} (hx : x ≠ '\n') (h : (x :: a).getLast? = some '\n') : '\n' ∈ a := by
  rcases List.mem_cons.mp (List.mem_of_getLast? h) with h | h
  · exact absurd h.symm hx
  · exact h

/-- A newline that is written stays. -/
theorem ifNewLine_nl {lvl : Int} {w : Str → Str → Res Str} {h k r : Str} {x : Char} (hx : x ≠ '\n')
    (hw : ifNewLine c lvl true w h (x :: k) = .ok r) : ∃ k', r = x :: k' ∧ '\n' ∈ k' := by
  obtain ⟨K, _, t, b, _, _, h0⟩ := ifNewLine_eff hw
  rcases h0 with ⟨_, ⟨h1, rfl⟩ | rfl⟩ | ⟨_, a, d, h1, _, h3, h4⟩
  · exact ⟨k ++ (t ++ indentText c lvl), rfl, by simp [List.mem_of_getLast? h1]⟩
  · exact ⟨k ++ (t ++ '\n' :: indentText c lvl), rfl, by simp⟩
  · have ha : a ≠ [] := by
      intro e
      subst e
      by_cases hd : d = []
      · subst hd; cases h1
      · exact h3 hd rfl
    obtain ⟨y, a, rfl⟩ := List.exists_cons_of_ne_nil ha
    cases h1
    rcases h4 with ⟨h4, rfl⟩ | rfl
    · exact ⟨a ++ indentText c lvl, rfl, by simp [mem_of_last hx h4]⟩
    · exact ⟨a ++ '\n' :: indentText c lvl, rfl, by simp⟩

theorem spaceHint_reg (hr : Regular c) {e : CEnv} (he : e.range = none) {loc : Loc} {h f r : Str}
    (hw : spaceHint e c loc h f = .ok r) : r = f ++ h := by
  unfold spaceHint at hw
  rw [he, if_neg (by simp [outOfRange]), if_pos hr.spaces] at hw
  cases hw
  rfl

theorem ctokText_reg (hr : Regular c) (t : CTok) :
    (ctokText c t = [] ∧ ctokHint c t = []) ∨ '\n' ∈ ctokText c t ∨ '-' ∈ ctokText c t := by
  cases t with
  | newLine =>
    simp only [ctokText]
    split
    · exact .inl ⟨rfl, rfl⟩
    · exact .inr (.inl (by simp))
  | oneLine s =>
    simp only [ctokText]
    split
    · next h =>
      split
      · exact .inl ⟨rfl, hr.comment h⟩
      · exact .inr (.inl (by simp))
    · right; right
      split
      · split <;> simp
      · simp
  | multiLine l s =>
    simp only [ctokText]
    split
    · next h => exact .inl ⟨rfl, hr.comment h⟩
    · right; right; simp

theorem ctokWrite_reg {e : CEnv} (he : e.range = none) {t : CTokL} {f r : Str} (hw : ctokWrite e c t f = .ok r) :
    r = f ++ ctokText c t.tok := by
  unfold ctokWrite at hw
  rw [he, if_neg (by simp [outOfRange])] at hw
  cases hw
  rfl

/-- A gap inside a comment block. -/
theorem ifNewLine_reg (hr : Regular c) {e : CEnv} (he : e.range = none) {x : Char} (hx : x ≠ '\n') {nl : Bool} {loc : Loc}
    {h f r : Str} (hf : CInv x f) (hw : ifNewLine c e.lvl nl (spaceHint e c loc) h f = .ok r) :
    r = f ++ h ∨ ∃ k, r = x :: k ∧ '\n' ∈ k := by
  cases nl with
  | false =>
    simp only [ifNewLine, Bool.false_eq_true, if_false] at hw
    exact .inl (spaceHint_reg hr he hw)
  | true =>
    obtain ⟨k, rfl⟩ := hf.cons
    exact .inr (ifNewLine_nl hx hw)

theorem cgap_reg (hr : Regular c) {e : CEnv} (he : e.range = none) (hp : e.env.posRange = none) {x : Char} (hx : x ≠ '\n')
    {nl : Bool} {loc : Loc} {h f r : Str} (hf : CInv x f) (hw : cgap e c nl loc h f = .ok r) :
    r = f ++ h ∨ ∃ k, r = x :: k ∧ '\n' ∈ k := by
  unfold cgap at hw
  rw [hp, if_neg (by simp [outOfRange])] at hw
  exact ifNewLine_reg hr he hx hf hw

theorem crunRest_reg (hr : Regular c) {e : CEnv} (he : e.range = none) (hp : e.env.posRange = none) {x : Char} (hx : x ≠ '\n')
    {ic : Bool} : ∀ {ts : List (Loc × CTokL)} {f r : Str}, CInv x f → crunRest e c ic ts f = .ok r → CInv x r
  | [], f, r, hf, hw => by cases hw; exact hf
  | (gap, t) :: ts, f, r, hf, hw => by
    simp only [crunRest, Res.bind_eq_ok] at hw
    obtain ⟨f1, h1, f2, h2, h3⟩ := hw
    have h2 := ctokWrite_reg he h2
    refine crunRest_reg hr he hp hx ?_ h3
    rw [h2]
    rcases cgap_reg hr he hp hx hf h1 with rfl | ⟨k, rfl, hk⟩
    · rw [List.append_assoc]
      refine hf.add ?_
      rcases ctokText_reg hr t.tok with ⟨e1, e2⟩ | e1 | e1
      · left; rw [e1, e2]; rfl
      · right; left; simp [e1]
      · right; right; simp [e1]
    · exact ⟨_, rfl, .inr (.inl (by simp [hk]))⟩

theorem crunWrite_reg (hr : Regular c) {e : CEnv} (he : e.range = none) (hp : e.env.posRange = none) {x : Char} (hx : x ≠ '\n')
    {ru : CRun} {f r : Str} (hf : CInv x f) (hw : crunWrite e c ru f = .ok r) : CInv x r := by
  unfold crunWrite at hw
  rw [he, if_neg (by simp [outOfRange])] at hw
  split at hw
  · cases hw; exact hf
  · next gap t ts _ =>
    simp only [Res.bind_eq_ok] at hw
    obtain ⟨f1, h1, f2, h2, h3⟩ := hw
    simp only [ifNewLine, Bool.false_eq_true, if_false] at h1
    have h1 := spaceHint_reg hr he h1
    rw [List.append_nil] at h1
    subst h1
    refine crunRest_reg hr he hp hx ?_ h3
    rw [ctokWrite_reg he h2]
    exact hf.add ((ctokText_reg hr t.tok).imp (·.1) id)

theorem cvariantRest_reg (hr : Regular c) {e : CEnv} (he : e.range = none) (hp : e.env.posRange = none) {x : Char} (hx : x ≠ '\n') :
    ∀ {rs : List (Loc × CRun)} {f r : Str}, CInv x f → cvariantRest e c rs f = .ok r → CInv x r
  | [], f, r, hf, hw => by cases hw; exact hf
  | (gap, ru) :: rs, f, r, hf, hw => by
    simp only [cvariantRest, Res.bind_eq_ok] at hw
    obtain ⟨f1, h1, f2, h2, h3⟩ := hw
    refine cvariantRest_reg hr he hp hx (crunWrite_reg hr he hp hx ?_ h2) h3
    rcases cgap_reg hr he hp hx hf h1 with rfl | ⟨k, rfl, hk⟩
    · simpa using hf
    · exact ⟨k, rfl, .inr (.inl hk)⟩

theorem ite_ok {p : Prop} [Decidable p] {a b : Res Str} {r : Str} (h : (if p then a else b) = .ok r) : a = .ok r ∨ b = .ok r := by
  by_cases hp : p
  · rw [if_pos hp] at h; exact .inl h
  · rw [if_neg hp] at h; exact .inr h

theorem cvariantWrite_reg (hr : Regular c) {e : CEnv} (he : e.range = none) (hp : e.env.posRange = none) {x : Char} (hx : x ≠ '\n')
    {ch : CChunk} {f r : Str} (hf : CInv x f) (hw : cvariantWrite e c ch f = .ok r) : CInv x r := by
  unfold cvariantWrite at hw
  rw [he, if_neg (by simp [outOfRange])] at hw
  simp only at hw
  rcases ite_ok hw with hw | hw
  · cases hw; exact hf
  · generalize ch.runs = rs at hw
    cases rs with
    | nil => cases hw; exact hf
    | cons p rs =>
      obtain ⟨gap, ru⟩ := p
      simp only [Res.bind_eq_ok] at hw
      obtain ⟨f1, h1, f2, h2, h3⟩ := hw
      refine cvariantRest_reg hr he hp hx (crunWrite_reg hr he hp hx ?_ h2) h3
      rcases ifNewLine_reg hr he hx hf h1 with rfl | ⟨k, rfl, hk⟩
      · simpa using hf
      · exact ⟨k, rfl, .inr (.inl hk)⟩

theorem cchunkWrite_reg (hr : Regular c) {e : CEnv} (he : e.range = none) (hp : e.env.posRange = none) {x : Char} (hx : x ≠ '\n')
    {ch : CChunk} {r : Str} (hw : cchunkWrite e c ch [x] = .ok r) : CInv x r := by
  unfold cchunkWrite at hw
  rw [he, if_neg (by simp [outOfRange])] at hw
  simp only [Res.bind_eq_ok] at hw
  obtain ⟨f1, h1, f2, h2, h3⟩ := hw
  rw [spaceHint_reg hr he h3, List.append_nil]
  refine cvariantWrite_reg hr he hp hx ?_ h2
  rw [spaceHint_reg hr he h1, List.append_nil]
  exact ⟨[], rfl, .inl rfl⟩

theorem dropBytes_char {x : Char} {k b : Str} (h : dropBytes 1 (x :: k) = some b) : b = k := by
  simp only [dropBytes] at h
  split at h
  · have : 0 + 1 - x.utf8Size = 0 := by
      have := Char.utf8Size_pos x
      omega
    rw [this] at h
    simp only [dropBytes, Option.some.injEq] at h
    exact h.symm
  · cases h

/-- The text of a gap is its hint, or it has a newline or a comment. -/
theorem commentHint_reg (hr : Regular c) {env : Env} (hp : env.posRange = none) {lvl : Int} {loc : Loc} {h f r : Str}
    (hx : lastOr ' ' f ≠ '\n') (hw : commentHint env c lvl loc h f = .ok r) :
    r = f ++ h ∨ ∃ k, r = f ++ k ∧ ('\n' ∈ k ∨ '-' ∈ k) := by
  unfold commentHint at hw
  rw [hp, if_neg (by simp [outOfRange])] at hw
  simp only [Res.bind_eq_ok] at hw
  obtain ⟨cbuf, _, hw⟩ := hw
  split at hw
  · cases hw
  · simp only [Res.bind_eq_ok] at hw
    obtain ⟨full, h1, hw⟩ := hw
    obtain ⟨k, rfl, hk⟩ := cchunkWrite_reg hr rfl hp hx h1
    split at hw
    · cases hw
    · next b hb =>
      have hb := dropBytes_char hb
      subst hb
      cases hw
      unfold commentBlockText
      rcases hk with rfl | hk | hk
      · left; rw [if_pos rfl, if_pos hr.zero]
      · right
        refine ⟨_, rfl, .inl ?_⟩
        rw [if_neg (by rintro rfl; cases hk)]
        simp [hk]
      · right
        refine ⟨_, rfl, .inr ?_⟩
        rw [if_neg (by rintro rfl; cases hk)]
        simp [hk]

/-- The text `K` that is written behind `x` and has no newline and no comment is `H`. -/
def Exact (c : Config) (x : Char) (H K : Str) : Prop := Regular c → x ≠ '\n' → '\n' ∉ K → '-' ∉ K → K = H

theorem gapStep_exact {env : Env} (hr : env.posRange = none ∨ c.lineRange ≠ none)
    {loc : Loc} {h P g g' H : Str} (hP : Firm P)
    (h0 : Exact c (lastOr ' ' P) H g) (hs : GapStep env c loc h (P ++ g) (P ++ g')) :
    Exact c (lastOr ' ' P) (H ++ h) g' := by
  intro hreg hx hn hm
  have hp : env.posRange = none := hr.resolve_right fun h => h hreg.range
  obtain ⟨p0, f0, g0, lvl, bb, h1, h2, h3, _⟩ := hs
  have hlast : '\n' ∉ g → lastOr ' ' f0 ≠ '\n' := by
    intro hg he
    have hf : f0.getLast? = some '\n' := by
      unfold lastOr at he
      cases hf : f0.getLast? with
      | none => rw [hf] at he; cases he
      | some y => rw [hf] at he; cases he; rfl
    have : (P ++ g).getLast? = some '\n' := by rw [h1, List.getLast?_append, hf]; rfl
    rw [List.getLast?_append] at this
    cases hg' : g.getLast? with
    | none =>
      rw [hg'] at this
      refine hx ?_
      unfold lastOr
      simp only [Option.none_or] at this
      rw [this]; rfl
    | some y =>
      rw [hg'] at this
      cases this
      exact hg (List.mem_of_getLast? hg')
  cases bb with
  | false =>
    simp only [ifNewLine, Bool.false_eq_true, if_false] at h3
    have hpre : ∀ k, g0 = f0 ++ k → g' = g ++ k := by
      intro k e
      rw [e, ← List.append_assoc, ← h1, List.append_assoc] at h2
      exact List.append_cancel_left h2
    have hsub : ∃ k, g0 = f0 ++ k := by
      unfold commentHint at h3
      rw [hp, if_neg (by simp [outOfRange])] at h3
      simp only [Res.bind_eq_ok] at h3
      obtain ⟨_, _, h3⟩ := h3
      split at h3
      · cases h3
      · simp only [Res.bind_eq_ok] at h3
        obtain ⟨_, _, h3⟩ := h3
        split at h3
        · cases h3
        · cases h3; exact ⟨_, rfl⟩
    obtain ⟨k0, hk0⟩ := hsub
    have hg := hpre _ hk0
    have hn' : '\n' ∉ g := fun h => hn (by rw [hg]; simp [h])
    have hm' : '-' ∉ g := fun h => hm (by rw [hg]; simp [h])
    rw [← h0 hreg hx hn' hm']
    rcases commentHint_reg hreg hp (hlast hn') h3 with e | ⟨k, e, hk⟩
    · exact hpre _ e
    · exfalso
      have := hpre _ e
      subst this
      rcases hk with hk | hk
      · exact hn (by simp [hk])
      · exact hm (by simp [hk])
  | true =>
    exfalso
    obtain ⟨K0, hK, hE⟩ := ifNewLine_eff h3
    have hE' := hE.lift p0
    rw [← h1, ← h2] at hE'
    obtain ⟨t, d, _, _, e0⟩ := hE'
    rcases e0 with ⟨_, e0⟩ | ⟨_, a', d', e3, e4, e5, e6⟩
    · rcases e0 with ⟨e1, h⟩ | h
      · rw [List.append_assoc] at h
        have h := List.append_cancel_left h
        exact hn (by rw [h]; simp [List.mem_of_getLast? e1])
      · rw [List.append_assoc] at h
        have h := List.append_cancel_left h
        exact hn (by rw [h]; simp)
    · obtain ⟨a'', rfl, rfl⟩ := firm_split hP e3 e4 e5
      rcases e6 with ⟨e6, h⟩ | h
      · rw [List.append_assoc] at h
        have h := List.append_cancel_left h
        rw [List.getLast?_append] at e6
        cases ha : a''.getLast? with
        | none =>
          rw [ha] at e6
          refine hx ?_
          unfold lastOr
          simp only [Option.none_or] at e6
          rw [e6]; rfl
        | some y =>
          rw [ha] at e6
          cases e6
          exact hn (by rw [h]; simp [List.mem_of_getLast? ha])
      · rw [List.append_assoc] at h
        have h := List.append_cancel_left h
        exact hn (by rw [h]; simp)

/-! ### What comes next -/

/-- A newline or a comment. -/
def Begun (c : Config) (k : Str) : Prop := k.head? = some '\n' ∨ ∃ k', k = beforeComment c ++ '-' :: k'

theorem Begun.append {k g : Str} (h : Begun c k) : Begun c (k ++ g) := by
  rcases h with h | ⟨k', rfl⟩
  · left
    cases k with
    | nil => cases h
    | cons => exact h
  · exact .inr ⟨k' ++ g, by simp⟩

theorem trim_split {p q a d : Str} {y : Char} (hy : y ≠ ' ' ∧ y ≠ '\t') (hd : Tabs d) (h : p ++ y :: q = a ++ d) :
    ∃ q', a = p ++ y :: q' := by
  have hmem : ∀ {u v : Str}, d = u ++ y :: v → False := by
    intro u v e
    have := hd y (by rw [e]; simp)
    exact this.elim hy.1 hy.2
  rcases List.append_eq_append_iff.mp h with ⟨u, h1, h2⟩ | ⟨u, h1, h2⟩
  · cases u with
    | nil => exact (hmem (u := []) (by simpa using h2.symm)).elim
    | cons z u =>
      cases h2
      exact ⟨u, h1⟩
  · exact (hmem h2).elim

theorem Begun.trim {a d : Str} (hd : Tabs d) (h : Begun c (a ++ d)) : Begun c a := by
  rcases h with h | ⟨k', h⟩
  · obtain ⟨k, hk⟩ : ∃ k, a ++ d = '\n' :: k := by
      cases hk : a ++ d with
      | nil => rw [hk] at h; cases h
      | cons y k => rw [hk] at h; cases h; exact ⟨k, rfl⟩
    obtain ⟨q, rfl⟩ := trim_split (p := []) (by decide) hd hk.symm
    exact .inl rfl
  · obtain ⟨q, rfl⟩ := trim_split (by decide) hd h.symm
    exact .inr ⟨q, rfl⟩

/-- The same inside a block of comments, where the hint is not yet written. -/
def Begun0 (c : Config) (k : Str) : Prop := (∃ k', k = '-' :: k') ∨ Begun c k

theorem Begun0.append {k g : Str} (h : Begun0 c k) : Begun0 c (k ++ g) := by
  rcases h with ⟨k', rfl⟩ | h
  · exact .inl ⟨k' ++ g, rfl⟩
  · exact .inr h.append

theorem Begun0.trim {a d : Str} (hd : Tabs d) (h : Begun0 c (a ++ d)) : Begun0 c a := by
  rcases h with ⟨k', h⟩ | h
  · obtain ⟨q, rfl⟩ := trim_split (p := []) (by decide) hd h.symm
    exact .inl ⟨q, rfl⟩
  · exact .inr (h.trim hd)

/-- Behind `x` nothing is written, or a newline or a comment comes next. -/
def CNext (c : Config) (x : Char) (f : Str) : Prop := ∃ k, f = x :: k ∧ (k = [] ∨ Begun0 c k)

theorem CNext.add {x : Char} {f g : Str} (h : CNext c x f) (hg : g = [] ∨ Begun0 c g) : CNext c x (f ++ g) := by
  obtain ⟨k, rfl, h⟩ := h
  refine ⟨k ++ g, rfl, ?_⟩
  rcases h with rfl | h
  · simpa using hg
  · exact .inr h.append

theorem ctokText_next (hr : Regular c) (t : CTok) :
    (ctokText c t = [] ∧ ctokHint c t = []) ∨ Begun c (ctokText c t) ∨
      (∃ k, ctokText c t = '-' :: k) ∧ ctokHint c t = beforeComment c := by
  cases t with
  | newLine =>
    simp only [ctokText]
    split
    · exact .inl ⟨rfl, rfl⟩
    · exact .inr (.inl (.inl rfl))
  | oneLine s =>
    simp only [ctokText]
    split
    · next h =>
      split
      · exact .inl ⟨rfl, hr.comment h⟩
      · exact .inr (.inl (.inl rfl))
    · right; right
      refine ⟨?_, rfl⟩
      split
      · split <;> exact ⟨_, rfl⟩
      · exact ⟨_, rfl⟩
  | multiLine l s =>
    simp only [ctokText]
    split
    · next h => exact .inl ⟨rfl, hr.comment h⟩
    · exact .inr (.inr ⟨⟨_, rfl⟩, rfl⟩)

/-- A gap inside a comment block. -/
theorem ifNewLine_next (hr : Regular c) {e : CEnv} (he : e.range = none) {x : Char} (hx : x ≠ '\n') {nl : Bool} {loc : Loc}
    {h f r : Str} (hf : CNext c x f) (hw : ifNewLine c e.lvl nl (spaceHint e c loc) h f = .ok r) :
    r = f ++ h ∨ ∃ k, r = x :: k ∧ Begun0 c k := by
  cases nl with
  | false =>
    simp only [ifNewLine, Bool.false_eq_true, if_false] at hw
    exact .inl (spaceHint_reg hr he hw)
  | true =>
    obtain ⟨k, rfl, hk⟩ := hf
    obtain ⟨K, hK, t, b, h1, _, h0⟩ := ifNewLine_eff hw
    have hK := spaceHint_reg hr he hK
    rw [List.append_nil] at hK
    subst hK
    have ht : t = [] := (List.append_eq_nil_iff.mp h1.symm).1
    rcases h0 with ⟨h, _⟩ | ⟨_, a, d, h1, h2, h3, h4⟩
    · exact absurd ht h
    · have ha : a ≠ [] := by
        intro e
        subst e
        by_cases hd : d = []
        · subst hd; cases h1
        · exact h3 hd rfl
      obtain ⟨y, a, rfl⟩ := List.exists_cons_of_ne_nil ha
      cases h1
      right
      rcases hk with hk | hk
      · obtain ⟨rfl, rfl⟩ := List.append_eq_nil_iff.mp hk
        rcases h4 with ⟨h4, _⟩ | rfl
        · cases h4; exact absurd rfl hx
        · exact ⟨_, rfl, .inr (.inl rfl)⟩
      · have := hk.trim h2
        rcases h4 with ⟨_, rfl⟩ | rfl <;> exact ⟨_, rfl, this.append⟩

theorem cgap_next (hr : Regular c) {e : CEnv} (he : e.range = none) (hp : e.env.posRange = none) {x : Char} (hx : x ≠ '\n')
    {nl : Bool} {loc : Loc} {h f r : Str} (hf : CNext c x f) (hw : cgap e c nl loc h f = .ok r) :
    r = f ++ h ∨ ∃ k, r = x :: k ∧ Begun0 c k := by
  unfold cgap at hw
  rw [hp, if_neg (by simp [outOfRange])] at hw
  exact ifNewLine_next hr he hx hf hw

theorem crunRest_next (hr : Regular c) {e : CEnv} (he : e.range = none) (hp : e.env.posRange = none) {x : Char} (hx : x ≠ '\n')
    {ic : Bool} : ∀ {ts : List (Loc × CTokL)} {f r : Str}, CNext c x f → crunRest e c ic ts f = .ok r → CNext c x r
  | [], f, r, hf, hw => by cases hw; exact hf
  | (gap, t) :: ts, f, r, hf, hw => by
    simp only [crunRest, Res.bind_eq_ok] at hw
    obtain ⟨f1, h1, f2, h2, h3⟩ := hw
    have h2 := ctokWrite_reg he h2
    refine crunRest_next hr he hp hx ?_ h3
    rw [h2]
    rcases cgap_next hr he hp hx hf h1 with rfl | ⟨k, rfl, hk⟩
    · rw [List.append_assoc]
      refine hf.add ?_
      rcases ctokText_next hr t.tok with ⟨e1, e2⟩ | e1 | ⟨⟨k, e1⟩, e2⟩
      · left; rw [e1, e2]; rfl
      · cases htk : t.tok with
        | newLine => rw [htk] at e1; exact .inr (.inr e1)
        | oneLine s =>
          rw [htk] at e1
          by_cases hrc : c.bool .removeComments = some true
          · right; right
            have : ctokHint c (.oneLine s) = [] := hr.comment hrc
            rw [this]
            exact e1
          · right; right; right
            simp only [ctokText, if_neg hrc]
            show ∃ k', beforeComment c ++ _ = _
            split
            · split <;> exact ⟨_, rfl⟩
            · exact ⟨_, rfl⟩
        | multiLine l s =>
          rw [htk] at e1
          by_cases hrc : c.bool .removeComments = some true
          · right; right
            have : ctokHint c (.multiLine l s) = [] := hr.comment hrc
            rw [this]
            exact e1
          · right; right; right
            simp only [ctokText, if_neg hrc]
            exact ⟨_, rfl⟩
      · right; right; right
        exact ⟨k, by rw [e1, e2]⟩
    · exact ⟨_, rfl, .inr hk.append⟩

theorem crunWrite_next (hr : Regular c) {e : CEnv} (he : e.range = none) (hp : e.env.posRange = none) {x : Char} (hx : x ≠ '\n')
    {ru : CRun} {f r : Str} (hf : CNext c x f) (hw : crunWrite e c ru f = .ok r) : CNext c x r := by
  unfold crunWrite at hw
  rw [he, if_neg (by simp [outOfRange])] at hw
  split at hw
  · cases hw; exact hf
  · next gap t ts _ =>
    simp only [Res.bind_eq_ok] at hw
    obtain ⟨f1, h1, f2, h2, h3⟩ := hw
    simp only [ifNewLine, Bool.false_eq_true, if_false] at h1
    have h1 := spaceHint_reg hr he h1
    rw [List.append_nil] at h1
    subst h1
    refine crunRest_next hr he hp hx ?_ h3
    rw [ctokWrite_reg he h2]
    refine hf.add ?_
    rcases ctokText_next hr t.tok with ⟨e1, _⟩ | e1 | ⟨⟨k, e1⟩, _⟩
    · exact .inl e1
    · exact .inr (.inr e1)
    · exact .inr (.inl ⟨k, e1⟩)

theorem cvariantRest_next (hr : Regular c) {e : CEnv} (he : e.range = none) (hp : e.env.posRange = none) {x : Char} (hx : x ≠ '\n') :
    ∀ {rs : List (Loc × CRun)} {f r : Str}, CNext c x f → cvariantRest e c rs f = .ok r → CNext c x r
  | [], f, r, hf, hw => by cases hw; exact hf
  | (gap, ru) :: rs, f, r, hf, hw => by
    simp only [cvariantRest, Res.bind_eq_ok] at hw
    obtain ⟨f1, h1, f2, h2, h3⟩ := hw
    refine cvariantRest_next hr he hp hx (crunWrite_next hr he hp hx ?_ h2) h3
    rcases cgap_next hr he hp hx hf h1 with rfl | ⟨k, rfl, hk⟩
    · simpa using hf
    · exact ⟨k, rfl, .inr hk⟩

theorem cvariantWrite_next (hr : Regular c) {e : CEnv} (he : e.range = none) (hp : e.env.posRange = none) {x : Char} (hx : x ≠ '\n')
    {ch : CChunk} {f r : Str} (hf : CNext c x f) (hw : cvariantWrite e c ch f = .ok r) : CNext c x r := by
  unfold cvariantWrite at hw
  rw [he, if_neg (by simp [outOfRange])] at hw
  simp only at hw
  rcases ite_ok hw with hw | hw
  · cases hw; exact hf
  · generalize ch.runs = rs at hw
    cases rs with
    | nil => cases hw; exact hf
    | cons p rs =>
      obtain ⟨gap, ru⟩ := p
      simp only [Res.bind_eq_ok] at hw
      obtain ⟨f1, h1, f2, h2, h3⟩ := hw
      refine cvariantRest_next hr he hp hx (crunWrite_next hr he hp hx ?_ h2) h3
      rcases ifNewLine_next hr he hx hf h1 with rfl | ⟨k, rfl, hk⟩
      · simpa using hf
      · exact ⟨k, rfl, .inr hk⟩

theorem cchunkWrite_next (hr : Regular c) {e : CEnv} (he : e.range = none) (hp : e.env.posRange = none) {x : Char} (hx : x ≠ '\n')
    {ch : CChunk} {r : Str} (hw : cchunkWrite e c ch [x] = .ok r) : CNext c x r := by
  unfold cchunkWrite at hw
  rw [he, if_neg (by simp [outOfRange])] at hw
  simp only [Res.bind_eq_ok] at hw
  obtain ⟨f1, h1, f2, h2, h3⟩ := hw
  rw [spaceHint_reg hr he h3, List.append_nil]
  refine cvariantWrite_next hr he hp hx ?_ h2
  rw [spaceHint_reg hr he h1, List.append_nil]
  exact ⟨[], rfl, .inl rfl⟩

theorem commentBlockText_next (hh : BlankHints c) {h k : Str} (hk : Begun0 c k) : Begun c (commentBlockText c h k) := by
  unfold commentBlockText
  have hb : '-' ∉ beforeComment c := by
    intro hm
    unfold beforeComment at hm
    cases hs : c.str .hintBeforeComment with
    | none => rw [hs] at hm; cases hm
    | some s =>
      rw [hs] at hm
      have := hh.hints .hintBeforeComment (by decide) s hs '-' hm
      revert this
      decide
  rw [if_neg (by
    rintro rfl
    rcases hk with ⟨_, h⟩ | h | ⟨_, h⟩
    · cases h
    · cases h
    · simp at h)]
  rw [List.append_assoc]
  rcases hk with ⟨k', rfl⟩ | h | ⟨k', rfl⟩
  · rw [if_pos (by rfl)]
    exact .inr ⟨_, rfl⟩
  · rw [if_neg (by rw [h]; decide), List.nil_append]
    exact Begun.append (.inl h)
  · cases hbc : beforeComment c with
    | nil =>
      rw [if_pos (by rfl)]
      exact .inr ⟨_, rfl⟩
    | cons y bs =>
      rw [if_neg (by
        intro e
        simp only [List.cons_append, List.head?_cons, Option.some.injEq] at e
        rw [hbc, e] at hb
        simp at hb), List.nil_append, ← hbc]
      exact Begun.append (.inr ⟨k', rfl⟩)

/-- The text of a gap is its hint, or a newline or a comment comes next. -/
theorem commentHint_next (hh : BlankHints c) (hr : Regular c) {env : Env} (hp : env.posRange = none) {lvl : Int} {loc : Loc} {h f r : Str}
    (hx : lastOr ' ' f ≠ '\n') (hw : commentHint env c lvl loc h f = .ok r) :
    r = f ++ h ∨ ∃ k, r = f ++ k ∧ Begun c k := by
  unfold commentHint at hw
  rw [hp, if_neg (by simp [outOfRange])] at hw
  simp only [Res.bind_eq_ok] at hw
  obtain ⟨cbuf, _, hw⟩ := hw
  split at hw
  · cases hw
  · simp only [Res.bind_eq_ok] at hw
    obtain ⟨full, h1, hw⟩ := hw
    obtain ⟨k, rfl, hk⟩ := cchunkWrite_next hr rfl hp hx h1
    split at hw
    · cases hw
    · next b hb =>
      have hb := dropBytes_char hb
      subst hb
      cases hw
      rcases hk with rfl | hk
      · left
        unfold commentBlockText
        rw [if_pos rfl, if_pos hr.zero]
      · exact .inr ⟨_, rfl, commentBlockText_next hh hk⟩

/-- A gap of zero width has only its hint. -/
theorem commentHint_here (hr : Regular c) {env : Env} (hp : env.posRange = none) {lvl : Int} {loc : Loc} {h f r : Str}
    (hl : loc.l = loc.r) (hw : commentHint env c lvl loc h f = .ok r) : r = f ++ h := by
  obtain ⟨l, q⟩ := loc
  cases hl
  unfold commentHint at hw
  simp only [hp, outOfRange, Bool.false_eq_true, if_false, Res.bind_eq_ok] at hw
  obtain ⟨cbuf, hb, hw⟩ := hw
  cases substr_same hb
  have hp' : parseComment [] = some ⟨⟨0, 0⟩, ⟨0, 0⟩, [], ⟨0, 0⟩⟩ := by decide +kernel
  simp only [hp', Res.bind_eq_ok] at hw
  obtain ⟨full, hf, hw⟩ := hw
  have hfull : full = [f.getLast?.getD ' '] := by
    unfold cchunkWrite at hf
    simp only [commentRange, Option.map_none, outOfRange, Bool.false_eq_true, if_false, Res.bind_eq_ok] at hf
    obtain ⟨f1, h1, f2, h2, h3⟩ := hf
    have e1 := spaceHint_same h1
    have e3 := spaceHint_same h3
    unfold cvariantWrite at h2
    simp only [outOfRange, Bool.false_eq_true, if_false, and_false] at h2
    cases h2
    rw [e3, e1]
  subst hfull
  split at hw
  · cases hw
  · next block hd =>
    have hb := dropBytes_char hd
    subst hb
    cases hw
    unfold commentBlockText
    rw [if_pos rfl, if_pos hr.zero]

theorem ifNewLine_blank {lvl : Int} {w : Str → Str → Res Str} {h P r : Str} (hP : P ≠ []) (hl : P.getLast? ≠ some '\n')
    (hK : w [] [] = .ok []) (hw : ifNewLine c lvl true w h (P ++ [' ']) = .ok r) : r = P ++ '\n' :: indentText c lvl := by
  simp only [ifNewLine, if_true, Res.bind_eq_ok, Res.pure_eq, hK] at hw
  obtain ⟨K, e, hr⟩ := hw
  cases e
  cases hr
  have hlen : 1 < byteLen (P ++ [' ']) := by
    obtain ⟨y, P, rfl⟩ := List.exists_cons_of_ne_nil hP
    rw [byteLen_append]
    have := Char.utf8Size_pos y
    simp only [byteLen, show (' ' : Char).utf8Size = 1 from rfl]
    omega
  have hc : 1 < byteLen (P ++ [' ']) ∧ ((P ++ [' ']).getLast? = some ' ' ∨ (P ++ [' ']).getLast? = some '\t') :=
    ⟨hlen, .inl (by simp)⟩
  rw [if_neg (by decide), if_pos hc, List.dropLast_concat, if_neg hl, List.append_assoc]
  rfl

/-- What comes next behind `x` is as it should be. -/
def Start (c : Config) (x : Char) (K : Str) : Prop := Regular c → Narrow c → x ≠ '\n' → Next c K

/-- At most one blank, if the hint of tables is at most one blank. -/
def Short (c : Config) (H : Str) : Prop := Narrow c → H = [] ∨ H = [' ']

theorem Start.nil {x : Char} : Start c x [] := fun _ _ _ => .inl ⟨by simp, by simp⟩

theorem last_source {P g p0 f0 : Str} (hx : lastOr ' ' P ≠ '\n') (h1 : P ++ g = p0 ++ f0) (hg : '\n' ∉ g) :
    lastOr ' ' f0 ≠ '\n' := by
  intro he
  have hf : f0.getLast? = some '\n' := by
    unfold lastOr at he
    cases hf : f0.getLast? with
    | none => rw [hf] at he; cases he
    | some y => rw [hf] at he; cases he; rfl
  have : (P ++ g).getLast? = some '\n' := by rw [h1, List.getLast?_append, hf]; rfl
  rw [List.getLast?_append] at this
  cases hg' : g.getLast? with
  | none =>
    rw [hg'] at this
    refine hx ?_
    unfold lastOr
    simp only [Option.none_or] at this
    rw [this]; rfl
  | some y =>
    rw [hg'] at this
    cases this
    exact hg (List.mem_of_getLast? hg')

theorem last_ne {P : Str} (hx : lastOr ' ' P ≠ '\n') : P.getLast? ≠ some '\n' := by
  intro e
  refine hx ?_
  unfold lastOr
  rw [e]; rfl

theorem gapStep_start (hh : BlankHints c) {env : Env} (hr : env.posRange = none ∨ c.lineRange ≠ none)
    {loc : Loc} {h P g g' H : Str} (hP : Firm P) (hne : P ≠ [])
    (hX : Exact c (lastOr ' ' P) H g) (h0 : Start c (lastOr ' ' P) g)
    (hloc : Regular c → (H = [] ∨ loc.l = loc.r) ∧ Short c H ∧ Short c h)
    (hs : GapStep env c loc h (P ++ g) (P ++ g')) : Start c (lastOr ' ' P) g' := by
  intro hreg hnar hx
  have hp : env.posRange = none := hr.resolve_right fun h => h hreg.range
  obtain ⟨hl, hsH, hsh⟩ := hloc hreg
  obtain ⟨p0, f0, g0, lvl, bb, h1, h2, h3, _, h5⟩ := hs
  have hpre : ∀ k, g0 = f0 ++ k → g' = g ++ k := by
    intro k e
    rw [e, ← List.append_assoc, ← h1, List.append_assoc] at h2
    exact List.append_cancel_left h2
  have hB : ∀ {k : Str}, Begun c k → Next c k := fun h => .inr h
  rcases h0 hreg hnar hx with ⟨hn, hm⟩ | h0
  · have hgH := hX hreg hx hn hm
    cases bb with
    | false =>
      simp only [ifNewLine, Bool.false_eq_true, if_false] at h3
      have plain : g' = g ++ h → Next c g' := by
        intro e
        rw [e]
        left
        rcases hsh hnar with rfl | rfl <;> simp [hn, hm]
      rcases commentHint_next hh hreg hp (last_source hx h1 hn) h3 with e | ⟨k, e, hk⟩
      · exact plain (hpre _ e)
      · rcases hl with hl | hl
        · rw [hpre _ e, hgH, hl]
          exact hB hk
        · exact plain (hpre _ (commentHint_here hreg hp hl h3))
    | true =>
      have := h5 rfl
      subst this
      simp only [List.nil_append] at h1 h2
      subst h1
      subst h2
      obtain ⟨K, hK, hE⟩ := ifNewLine_eff h3
      have hblank : H = [' '] → K = [] → Next c g' := by
        intro e eK
        subst eK
        rw [hgH, e] at h3
        have := List.append_cancel_left (ifNewLine_blank hne (last_ne hx) hK h3)
        rw [this]
        exact .inr (.inl rfl)
      have hKs : K = [] ∨ (Begun c K ∧ H = []) := by
        rcases commentHint_next hh hreg hp (f := []) (by decide) hK with e | ⟨k, e, hk⟩
        · exact .inl e
        · rcases hl with hl | hl
          · exact .inr ⟨by simpa [e] using hk, hl⟩
          · exact .inl (commentHint_here hreg hp hl hK)
      obtain ⟨t, b, e1, e2, e3⟩ := hE
      rcases hKs with rfl | ⟨hKb, hH⟩
      · rcases hsH hnar with hH | hH
        · have ht : t = [] := (List.append_eq_nil_iff.mp e1.symm).1
          rcases e3 with ⟨h, _⟩ | ⟨_, a', d', e3, e4, e5, e6⟩
          · exact absurd ht h
          · obtain ⟨a'', rfl, e7⟩ := firm_split hP e3 e4 e5
            rw [hgH, hH] at e7
            obtain ⟨rfl, rfl⟩ := List.append_eq_nil_iff.mp e7.symm
            rcases e6 with ⟨e6, _⟩ | e6
            · rw [List.append_nil] at e6
              exact absurd e6 (last_ne hx)
            · rw [List.append_assoc] at e6
              rw [List.append_cancel_left e6]
              exact .inr (.inl rfl)
        · exact hblank hH rfl
      · rw [hgH, hH] at e3
        rcases e3 with ⟨ht, h⟩ | ⟨ht, _⟩
        · rw [e1] at hKb
          have := hKb.trim e2
          rw [List.append_nil] at h
          rcases h with ⟨_, h⟩ | h
          · rw [List.append_cancel_left h]; exact hB this.append
          · rw [List.append_cancel_left h]; exact hB this.append
        · exfalso
          rw [e1, ht, List.nil_append] at hKb
          have := hKb.trim (a := []) e2
          rcases this with h | ⟨_, h⟩
          · cases h
          · simp at h
  · cases bb with
    | false =>
      simp only [ifNewLine, Bool.false_eq_true, if_false] at h3
      obtain ⟨k, e⟩ := commentHint_append h3
      rw [hpre _ e]
      exact hB (Begun.append h0)
    | true =>
      obtain ⟨K, _, hE⟩ := ifNewLine_eff h3
      have hE := hE.lift p0
      rw [← h1, ← h2] at hE
      obtain ⟨t, b, _, _, e0⟩ := hE
      rcases e0 with ⟨_, e0⟩ | ⟨_, a', d', e3, e4, e5, e6⟩
      · rcases e0 with ⟨_, h⟩ | h <;>
        · rw [List.append_assoc] at h
          rw [List.append_cancel_left h]
          exact hB (Begun.append h0)
      · obtain ⟨a'', rfl, rfl⟩ := firm_split hP e3 e4 e5
        have := Begun.trim e4 h0
        rcases e6 with ⟨_, h⟩ | h <;>
        · rw [List.append_assoc] at h
          rw [List.append_cancel_left h]
          exact hB this.append

end Luafmt
