import Verif.Proofs.Output
import Verif.Proofs.LiveWrite
import Verif.Spec.Unchanged

/-
With no option set the printer copies: gaps, tokens, the whole text.
-/
namespace Luafmt
open Spec

variable {c : Config}

/-! ### Gaps -/

theorem Spec.NoOptions.ctokText_eq (hc : NoOptions c) {t : CTok} {u rest : Str} (h : CText t u rest) :
    ctokText c t = u ∨ (rest = [] ∧ ∃ x, LineText x ∧ u = '-' :: '-' :: x ∧
      ctokText c t = '-' :: '-' :: ((if (∃ n, x = '[' :: eqs n) then [] else x) ++ ['\n'])) := by
  cases t with
  | newLine => left; cases h; simp [ctokText, hc.bool]
  | oneLine s =>
    rcases h with ⟨_, h⟩ | ⟨h1, x, h2, h3, rfl⟩
    · left; subst h; simp [ctokText, hc.bool, hc.str]
    · right; refine ⟨h1, x, h2, h3, ?_⟩
      simp [ctokText, hc.bool, hc.str]
  | multiLine n s =>
    left
    obtain ⟨_, rfl⟩ := h
    simp [ctokText, hc.bool, hc.str, opener, closer]

/-- The gap environment without a range. -/
structure CFree (e : CEnv) : Prop where
  buf : ∃ a b, e.off = a.length ∧ e.env.buf = a ++ (e.cbuf ++ b)
  pos : e.env.posRange = none
  range : e.range = none

theorem CFree.live {e : CEnv} (he : CFree e) : CLive True e := ⟨he.buf, fun _ => .inl ⟨he.pos, he.range⟩⟩

theorem CFree.out {e : CEnv} (he : CFree e) (l : Loc) : outOfRange e.range l = false := by rw [he.range]; rfl

theorem Spec.NoOptions.spaceHint (hc : NoOptions c) {e : CEnv} (he : CFree e) {l : Loc} {y f h : Str} (hl : At e l y) :
    spaceHint e c l h f = .ok (f ++ y) := by
  unfold Luafmt.spaceHint
  simp [he.out, hc.bool, he.live.put hl]

theorem Spec.NoOptions.ctokNewline (hc : NoOptions c) (t : CTok) : ctokNewline c t = false := by
  cases t <;> simp [Luafmt.ctokNewline, hc.num]

theorem Spec.NoOptions.ctokFirstNewline (hc : NoOptions c) (t : CTok) : ctokFirstNewline c t = false := by
  cases t <;> simp [Luafmt.ctokFirstNewline, hc.num]

theorem crunNewline_false {p : CTok → Bool} (h : ∀ t, p t = false) (r : CRun) : crunNewline p r = false := by
  unfold crunNewline
  split
  · exact h _
  · rfl

theorem Spec.NoOptions.cgap (hc : NoOptions c) {e : CEnv} (he : CFree e) {l : Loc} {y f h : Str} (hl : At e l y) :
    cgap e c false l h f = .ok (f ++ y) := by
  unfold Luafmt.cgap ifNewLine
  simp [show outOfRange e.env.posRange l = false by rw [he.pos]; rfl, hc.spaceHint he hl]

theorem Spec.NoOptions.ctokWrite (_ : NoOptions c) {e : CEnv} (he : CFree e) (t : CTokL) (f : Str) :
    ctokWrite e c t f = .ok (f ++ ctokText c t.tok) := by
  unfold Luafmt.ctokWrite
  simp [he.out]

/-- The text of comment tokens from position `p` on, with the blanks before each of them. -/
inductive Rd (c : Config) (e : CEnv) : Nat → List CTokL → Str → Prop
  | nil {p : Nat} : Rd c e p [] []
  | cons {p : Nat} {t : CTokL} {ts : List CTokL} {y K : Str} : At e ⟨p, t.l⟩ y → Rd c e t.r ts K →
      Rd c e p (t :: ts) (y ++ (ctokText c t.tok ++ K))

theorem Rd.append {e : CEnv} {ts us : List CTokL} {p : Nat} {K K' : Str} (h : Rd c e p ts K) :
    Rd c e (cendFrom p ts) us K' → Rd c e p (ts ++ us) (K ++ K') := by
  induction h with
  | nil => intro h; exact h
  | cons hy _ ih =>
    intro h
    have := Rd.cons hy (ih h)
    simpa using this

theorem Spec.NoOptions.crunRest (hc : NoOptions c) {e : CEnv} (he : CFree e) {k : Bool} {more : List CTokL} {ts : List CTokL} :
    ∀ {p : Nat} {f : Str}, CFrom e p (ts ++ more) →
      ∃ K, Rd c e p ts K ∧ crunRest e c k (crunItems (some p) ts) f = .ok (f ++ K) := by
  induction ts with
  | nil => intro p f _; exact ⟨[], .nil, by simp [crunItems, Luafmt.crunRest]⟩
  | cons t ts ih =>
    intro p f h
    obtain ⟨b, u, hg, hb, hu, h2, _⟩ := CFrom.split h
    obtain ⟨K, k1, k2⟩ := ih (f := f ++ b ++ ctokText c t.tok) h2
    refine ⟨_, .cons hg k1, ?_⟩
    simp only [crunItems, Luafmt.crunRest, hc.ctokNewline, Bool.and_false, hc.cgap he hg, Res.bind_ok, hc.ctokWrite he, k2]
    simp

theorem Spec.NoOptions.crunWrite (hc : NoOptions c) {e : CEnv} (he : CFree e) {k : Bool} {more : List CTokL} {t : CTokL}
    {ts : List CTokL} {f : Str} (h : CFrom e t.l (t :: ts ++ more)) :
    ∃ K, Rd c e t.l (t :: ts) K ∧
      crunWrite e c ⟨⟨t.l, crunEnd (t :: ts)⟩, k, crunItems none (t :: ts)⟩ f = .ok (f ++ K) := by
  unfold Luafmt.crunWrite
  obtain ⟨b, u, hg, hb, hu, h2, _⟩ := CFrom.split h
  obtain ⟨K, k1, k2⟩ := hc.crunRest he (k := k) (f := f ++ b ++ ctokText c t.tok) h2
  refine ⟨_, .cons hg k1, ?_⟩
  simp only [he.out, Bool.false_eq_true, if_false, crunItems, ifNewLine, hc.spaceHint he hg, Res.bind_ok, hc.ctokWrite he, k2]
  simp

theorem Spec.NoOptions.cvariantRest (hc : NoOptions c) {e : CEnv} (he : CFree e) {gs : List (Bool × List CTokL)} :
    ∀ {p : Nat} {f : Str}, Groups gs → CFrom e p (gs.flatMap (·.2)) →
      ∃ K, Rd c e p (gs.flatMap (·.2)) K ∧ cvariantRest e c (cvariant (some p) gs) f = .ok (f ++ K) := by
  induction gs with
  | nil => intro p f _ _; exact ⟨[], .nil, by simp [cvariant, Luafmt.cvariantRest]⟩
  | cons q gs ih =>
    intro p f hg h
    obtain ⟨k, q⟩ := q
    obtain ⟨t, ts, rfl⟩ := List.exists_cons_of_ne_nil (hg (k, q) (by simp)).1
    simp only [List.flatMap_cons] at h
    obtain ⟨b, u, hgp, hb, hu, h2, h3⟩ := CFrom.split h
    obtain ⟨K, k1, k2⟩ := hc.crunWrite he (k := k) (f := f ++ b) (more := gs.flatMap (·.2)) h3
    have h4 := (CFrom.upto (ts := t :: ts) h3).2
    obtain ⟨K', k3, k4⟩ := ih (f := f ++ b ++ K) (fun g hx => hg g (by simp [hx])) h4
    refine ⟨b ++ (K ++ K'), ?_, ?_⟩
    · rw [List.flatMap_cons]
      dsimp only
      cases k1 with
      | @cons _ _ _ y K1 hy k1 =>
        have hy0 : y = [] := by
          obtain ⟨x, z, h1, h2⟩ := hy
          injection h2 with h2 h3
          exact List.eq_nil_of_length_eq_zero (by omega)
        subst hy0
        simp only [cendFrom] at k3
        have := Rd.cons hgp (k1.append (us := gs.flatMap (fun x => x.2)) k3)
        simpa using this
    · have hend : cendFrom t.l (t :: ts) = crunEnd (t :: ts) := (crunEnd_eq t ts).symm
      rw [hend] at k4
      simp only [cvariant, crunStart, Luafmt.cvariantRest, crunNewline_false hc.ctokNewline, hc.cgap he hgp, Res.bind_ok, k2, k4]
      simp

theorem Spec.NoOptions.cvariantWrite (hc : NoOptions c) {e : CEnv} (he : CFree e) {t : CTokL} {ts : List CTokL} {locl locr : Loc}
    {f : Str} (h : CFrom e t.l (t :: ts)) :
    ∃ K, Rd c e t.l (t :: ts) K ∧
      cvariantWrite e c ⟨locl, ⟨t.l, crunEnd (t :: ts)⟩, cvariant none (cgroup (t :: ts)), locr⟩ f = .ok (f ++ K) := by
  unfold Luafmt.cvariantWrite
  simp only [he.out, Bool.false_eq_true, if_false, hc.bool, reduceCtorEq, false_and]
  obtain ⟨hg, hf2⟩ := cgroup_ok (t :: ts)
  generalize cgroup (t :: ts) = gs at hg hf2
  cases gs with
  | nil => simp at hf2
  | cons q gs =>
    obtain ⟨k, q⟩ := q
    obtain ⟨t', ts', rfl⟩ := List.exists_cons_of_ne_nil (hg (k, q) (by simp)).1
    simp only [List.flatMap_cons, List.cons_append, List.cons.injEq] at hf2
    obtain ⟨rfl, hf2⟩ := hf2
    have h3 : CFrom e t'.l (t' :: ts' ++ gs.flatMap (·.2)) := by
      rw [List.cons_append, hf2]; exact h
    have hz : At e ⟨t'.l, t'.l⟩ [] := by
      obtain ⟨pre, suf, e1, e2, _⟩ := h
      exact ⟨pre, suf, by simpa using e1, by simp [e2]⟩
    obtain ⟨K, k1, k2⟩ := hc.crunWrite he (k := k) (f := f) (more := gs.flatMap (·.2)) h3
    have h4 := (CFrom.upto (ts := t' :: ts') h3).2
    obtain ⟨K', k3, k4⟩ := hc.cvariantRest he (f := f ++ K) (fun g hx => hg g (by simp [hx])) h4
    have hend : cendFrom t'.l (t' :: ts') = crunEnd (t' :: ts') := (crunEnd_eq t' ts').symm
    have k5 := k1.append (us := gs.flatMap (·.2)) k3
    rw [List.cons_append, hf2] at k5
    refine ⟨K ++ K', k5, ?_⟩
    rw [hend] at k4
    simp only [cvariant, crunStart, crunNewline_false hc.ctokFirstNewline, ifNewLine, Bool.false_eq_true, if_false,
      hc.spaceHint he hz, List.append_nil, Res.bind_ok, k2, k4]
    simp

/-- The end of a text is completed: a one-line comment gets its newline. -/
def Ended (s K : Str) : Prop :=
  K = s ∨ ∃ a x, LineText x ∧ s = a ++ '-' :: '-' :: x ∧
    K = a ++ '-' :: '-' :: ((if (∃ n, x = '[' :: eqs n) then [] else x) ++ ['\n'])

theorem Ended.prepend {s K : Str} (h : Ended s K) (b : Str) : Ended (b ++ s) (b ++ K) := by
  rcases h with rfl | ⟨a, x, h1, rfl, rfl⟩
  · exact .inl rfl
  · exact .inr ⟨b ++ a, x, h1, by simp, by simp⟩

theorem Ended.nil {K : Str} (h : Ended [] K) : K = [] := by
  rcases h with h | ⟨a, x, _, h, _⟩
  · exact h
  · exact absurd h (by simp)

theorem at_unique {e : CEnv} {l : Loc} {y z : Str} (h : At e l y) (h' : At e l z) : y = z := by
  obtain ⟨x1, z1, e1, l1⟩ := h
  obtain ⟨x2, z2, e2, l2⟩ := h'
  rw [l1] at l2
  injection l2 with l3 l4
  rw [e1] at e2
  have := List.append_inj e2 l3
  exact (List.append_inj this.2 (by omega)).1

theorem Spec.NoOptions.rd (hc : NoOptions c) {e : CEnv} {ts : List CTokL} : ∀ {p : Nat} {K z pre suf : Str}, Rd c e p ts K →
    e.cbuf = pre ++ suf → pre.length = p → CTiles p suf ts → At e ⟨cendFrom p ts, e.cbuf.length⟩ z → Ended suf (K ++ z) := by
  induction ts with
  | nil =>
    intro p K z pre suf h h1 h2 h3 hz
    cases h
    have : At e ⟨p, e.cbuf.length⟩ suf := ⟨pre, [], by simpa using h1, by simp [h1, h2]⟩
    rw [at_unique hz this]
    exact .inl rfl
  | cons t ts ih =>
    intro p K z pre suf h h1 h2 h3 hz
    cases h with
    | @cons _ _ _ y K hy hK =>
    cases h3 with
    | @cons _ b u s _ _ k1 k2 k3 k4 k5 =>
      have hb : At e ⟨p, t.l⟩ b := ⟨pre, u ++ s, h1, by rw [h2, k3]⟩
      rw [at_unique hy hb]
      have ih' := ih (pre := pre ++ b ++ u) hK (by rw [h1]; simp) (by simp [h2, k3, k4]; omega) k5 hz
      rw [List.append_assoc, List.append_assoc]
      refine Ended.prepend ?_ b
      rcases hc.ctokText_eq k2 with hu | ⟨hs, x, hx, rfl, hu⟩
      · rw [hu]; exact ih'.prepend u
      · subst hs
        rw [hu, ih'.nil]
        exact .inr ⟨[], x, hx, by simp, by simp⟩

theorem Spec.NoOptions.ctokText_whole (hc : NoOptions c) {t : CTok} {u : Str} (h : CWhole t u) : ctokText c t = u := by
  cases t <;> cases h <;> simp [ctokText, hc.bool, hc.str, opener, closer]

theorem Spec.NoOptions.rdWhole (hc : NoOptions c) {e : CEnv} {ts : List CTokL} : ∀ {p : Nat} {K z pre suf : Str}, Rd c e p ts K →
    e.cbuf = pre ++ suf → pre.length = p → CWholes p suf ts → At e ⟨cendFrom p ts, e.cbuf.length⟩ z → K ++ z = suf := by
  induction ts with
  | nil =>
    intro p K z pre suf h h1 h2 h3 hz
    cases h
    have : At e ⟨p, e.cbuf.length⟩ suf := ⟨pre, [], by simpa using h1, by simp [h1, h2]⟩
    rw [at_unique hz this]
    rfl
  | cons t ts ih =>
    intro p K z pre suf h h1 h2 h3 hz
    cases h with
    | @cons _ _ _ y K hy hK =>
    cases h3 with
    | @cons _ b u s _ _ k2 k3 k4 k5 =>
      have hb : At e ⟨p, t.l⟩ b := ⟨pre, u ++ s, h1, by rw [h2, k3]⟩
      rw [at_unique hy hb, hc.ctokText_whole k2,
        ← ih (pre := pre ++ b ++ u) hK (by rw [h1]; simp) (by simp [h2, k3, k4]; omega) k5 hz]
      simp

theorem Spec.NoOptions.cchunkWrite (hc : NoOptions c) {e : CEnv} (he : CFree e) (hg : FinalGap e.cbuf) (f : Str) :
    ∃ ch K, parseComment e.cbuf = some ch ∧ cchunkWrite e c ch f = .ok (f ++ K) ∧ Ended e.cbuf K ∧ (Gap e.cbuf → K = e.cbuf) := by
  obtain ⟨ts, h1, h2, hw, _⟩ := clex_gap hg
  unfold parseComment
  rw [h1]
  have hall : At e ⟨0, e.cbuf.length⟩ e.cbuf := ⟨[], [], by simp, by simp⟩
  cases ts with
  | nil =>
    have hend : At e ⟨e.cbuf.length, e.cbuf.length⟩ [] := ⟨e.cbuf, [], by simp, by simp⟩
    refine ⟨_, e.cbuf, rfl, ?_, .inl rfl, fun _ => rfl⟩
    simp [Luafmt.cchunkWrite, Luafmt.cvariantWrite, he.out, hc.bool, hc.spaceHint he hall, hc.spaceHint he hend]
  | cons t ts =>
    have h0 : CFrom e 0 (t :: ts) := ⟨[], e.cbuf, by simp, rfl, h2⟩
    obtain ⟨b, u, hgp, hb, hu, h3, h4⟩ := CFrom.split h0
    have h4' : CFrom e t.l (t :: ts ++ []) := by simpa using h4
    have h5 := h4'.upto.2
    have hlast : ∃ z, At e ⟨cendFrom t.l (t :: ts), e.cbuf.length⟩ z := by
      obtain ⟨pre, suf, e1, e2, e3⟩ := h5
      cases e3 with
      | nil hs => exact ⟨suf, ⟨pre, [], by simp [e1], by simp [e1, e2]⟩⟩
    obtain ⟨z, hz⟩ := hlast
    obtain ⟨K, k1, k2⟩ := hc.cvariantWrite he (locl := ⟨0, t.l⟩) (locr := ⟨crunEnd (t :: ts), e.cbuf.length⟩) (f := f ++ b) h4
    refine ⟨_, b ++ (K ++ z), rfl, ?_, ?_⟩
    · have hz' := hz
      rw [show cendFrom t.l (t :: ts) = crunEnd (t :: ts) from (crunEnd_eq t ts).symm] at hz'
      unfold Luafmt.cchunkWrite
      simp only [he.out, Bool.false_eq_true, if_false, hc.spaceHint he hgp, Res.bind_ok]
      rw [k2]
      simp [hc.spaceHint he hz']
    · cases k1 with
      | @cons _ _ _ y K1 hy k1 =>
        have hy0 : y = [] := by
          obtain ⟨x, z, h1, h2⟩ := hy
          injection h2 with h2 h3
          exact List.eq_nil_of_length_eq_zero (by omega)
        subst hy0
        have := hc.rd (z := z) (Rd.cons hgp k1) (pre := []) (suf := e.cbuf) (by simp) rfl h2 (by simpa [cendFrom] using hz)
        refine ⟨by simpa using this, fun hG => ?_⟩
        have := hc.rdWhole (z := z) (Rd.cons hgp k1) (pre := []) (suf := e.cbuf) (by simp) rfl (hw hG).2
          (by simpa [cendFrom] using hz)
        simpa using this

theorem dropBytes_one {x : Char} {K r : Str} (h : dropBytes 1 (x :: K) = some r) : r = K := by
  unfold dropBytes at h
  split at h
  · next hx =>
    have hx : x.utf8Size ≤ 1 := hx
    have : x.utf8Size = 1 := by
      have := x.utf8Size_pos
      omega
    rw [this, Nat.sub_self, dropBytes] at h
    cases h; rfl
  · cases h

theorem Spec.NoOptions.commentHint (hc : NoOptions c) {env : Env} (hr : env.posRange = none) {a g b : Str}
    (hb : env.buf = a ++ (g ++ b)) (hg : FinalGap g) {lvl : Int} {h f r : Str}
    (hk : commentHint env c lvl ⟨a.length, a.length + g.length⟩ h f = .ok r) :
    ∃ K, r = f ++ K ∧ Ended g K ∧ (Gap g → K = g) := by
  unfold Luafmt.commentHint at hk
  rw [substr_src hb] at hk
  have ho : outOfRange env.posRange ⟨a.length, a.length + g.length⟩ = false := by rw [hr]; rfl
  simp only [ho, Bool.false_eq_true, if_false, Res.bind_ok] at hk
  have he : CFree ⟨env, g, a.length, commentRange env.posRange a.length, lvl⟩ :=
    ⟨⟨a, b, rfl, hb⟩, hr, by simp [hr, commentRange]⟩
  obtain ⟨ch, K, e1, e2, e3⟩ := hc.cchunkWrite he hg [f.getLast?.getD ' ']
  dsimp only at e1 e3
  rw [e1] at hk
  simp only [e2, Res.bind_ok, List.singleton_append] at hk
  refine ⟨K, ?_, e3⟩
  cases hd : dropBytes 1 (f.getLast?.getD ' ' :: K) with
  | none => simp [hd] at hk
  | some blk =>
    have := dropBytes_one hd
    subst this
    simp only [hd, commentBlockText, hc.bool, hc.str, Res.pure_eq] at hk
    split at hk <;> simp_all

theorem Spec.NoOptions.nlOpt (hc : NoOptions c) : ¬ NlOpt c := by
  rintro (⟨o, n, h, _⟩ | h | h | h)
  · rw [hc.num o] at h; cases h
  all_goals (rw [hc.bool] at h; cases h)

theorem Spec.NoOptions.indent (hc : NoOptions c) (lvl : Int) : indentText c lvl = [] := by
  simp [indentText, hc.str]

theorem Spec.NoOptions.plainStep (hc : NoOptions c) {env : Env} (hr : env.posRange = none) {a g b : Str} {l : Loc}
    (hb : env.buf = a ++ (g ++ b)) (hg : FinalGap g) (hl : l = ⟨a.length, a.length + g.length⟩) {h f r : Str}
    (hs : PlainStep env c l h f r) : ∃ K, r = f ++ K ∧ Ended g K ∧ (Gap g → K = g) := by
  obtain ⟨p, f0, r0, lvl, nl, rfl, rfl, h1, h2⟩ := hs
  cases nl with
  | true => exact absurd (h2.1 rfl) hc.nlOpt
  | false =>
    subst hl
    simp only [ifNewLine, Bool.false_eq_true, if_false] at h1
    obtain ⟨K, rfl, hK⟩ := hc.commentHint hr hb hg h1
    exact ⟨K, by simp, hK⟩

theorem trimEndSpaces_eq (g : Str) : trimEndSpaces g = (g.reverse.dropWhile fun ch => ch == ' ' || ch == '\t').reverse := rfl

theorem trimEndSpaces_ne {g : Str} (h : '\n' ∈ g) : trimEndSpaces g ≠ [] := by
  rw [trimEndSpaces_eq]
  intro e
  rw [List.reverse_eq_nil_iff] at e
  have : ∀ l : Str, '\n' ∈ l → (l.dropWhile fun ch => ch == ' ' || ch == '\t') ≠ [] := by
    intro l
    induction l with
    | nil => intro h; cases h
    | cons x l ih =>
      intro h
      simp only [List.dropWhile_cons]
      split
      · next hx =>
        refine ih ?_
        rcases List.mem_cons.mp h with rfl | h
        · exact absurd hx (by decide)
        · exact h
      · simp
  exact this g.reverse (by simpa using h) e

theorem Spec.NoOptions.tableStep (hc : NoOptions c) {env : Env} (hr : env.posRange = none) {a g b : Str} {l : Loc}
    (hb : env.buf = a ++ (g ++ b)) (hg : Gap g)
    (hl : l = ⟨a.length, a.length + g.length⟩) {h f r : Str}
    (hs : GapStep env c l h f r) : r = f ++ g ∨ ('\n' ∈ g ∧ r = f ++ closing g) := by
  obtain ⟨p, f0, r0, lvl, nl, rfl, rfl, h1, h2⟩ := hs
  subst hl
  cases nl with
  | false =>
    simp only [ifNewLine, Bool.false_eq_true, if_false] at h1
    obtain ⟨K, rfl, _, hK⟩ := hc.commentHint hr hb (.inl hg) h1
    rw [hK hg]
    exact .inl (by simp)
  | true =>
    right
    rcases h2.1 rfl with h2 | ⟨t, ht, hnl⟩
    · exact absurd h2 hc.nlOpt
    · obtain ⟨K, rfl, _, hK⟩ := hc.commentHint hr hb (.inl hg) ht
      rw [hK hg] at hnl
      have hin : '\n' ∈ g := by simpa [hasNewlines] using hnl
      refine ⟨hin, ?_⟩
      simp only [ifNewLine, if_true, Res.bind_eq_ok, Res.pure_eq] at h1
      obtain ⟨block, hbk, h1⟩ := h1
      obtain ⟨K, e, _, hK⟩ := hc.commentHint hr hb (.inl hg) hbk
      rw [hK hg, List.nil_append] at e
      rw [e] at h1
      rw [hc.indent, List.append_nil, if_pos (trimEndSpaces_ne hin)] at h1
      cases h1
      rw [show closing g = if (trimEndSpaces g).getLast? = some '\n' then trimEndSpaces g else trimEndSpaces g ++ ['\n'] from rfl]
      split <;> simp

/-! ### Texts -/

theorem Spec.Kept.refl {E : Prop} (s : Str) : Kept E s s := by
  induction s with
  | nil => exact .nil
  | cons x s ih => exact .char x ih

theorem Spec.Kept.prepend {E : Prop} {s s' : Str} (h : Kept E s s') (b : Str) : Kept E (b ++ s) (b ++ s') := by
  induction b with
  | nil => exact h
  | cons x b ih => exact .char x ih

theorem Ended.kept {E : Prop} {s K : Str} (h : Ended s K) : Kept E s K := by
  rcases h with rfl | ⟨a, x, h1, rfl, rfl⟩
  · exact .refl _
  · refine Kept.prepend ?_ a
    split
    · next hx =>
      obtain ⟨n, rfl⟩ := hx
      exact .half n
    · exact .comment h1

theorem Spec.Kept.ofNil {E : Prop} {s' : Str} (h : Kept E [] s') : s' = [] := by
  cases h; rfl

theorem Spec.NoOptions.tokOut (hc : NoOptions c) {t : Token} {out : Str} (h : TokOut c t out) : out = spell t := by
  rcases h with h | ⟨s, _, h, _⟩ | ⟨_, h⟩
  · exact h
  · rw [hc.bool] at h; cases h
  · rw [hc.str] at h; cases h

/-- The source has an empty table with a newline in it, among the tokens. -/
def Broken (buf : Str) (all : List TokL) : Prop :=
  ∃ xs t u ys, all = xs ++ t :: u :: ys ∧ t.tok = .openCurly ∧ u.tok = .closeCurly ∧
    '\n' ∈ (buf.drop t.r).take (u.l - t.r) ∧ ((buf.drop t.r).take (u.l - t.r)).getLast? ≠ some '\n'

theorem closing_id {g : Str} (h : g.getLast? = some '\n') : closing g = g := by
  have : (g.reverse.dropWhile fun ch => ch == ' ' || ch == '\t').reverse = g := by
    rw [List.reverse_eq_iff]
    rw [← List.head?_reverse] at h
    cases hr : g.reverse with
    | nil => rfl
    | cons x y =>
      rw [hr] at h
      cases h
      rfl
  unfold closing
  simp only [this, h, if_true]

theorem reads_inj {t t' : Token} {s : Str} (h : Reads t s.head?) (h' : Reads t' s.head?) (e : spell t = spell t') : t = t' := by
  have h1 := lexStep_ok 0 t s h
  have h2 := lexStep_ok 0 t' s h'
  rw [e, h2] at h1
  injection h1 with _ h1
  exact h1.symm

theorem curly_reads {t : Token} (h : t = .openCurly ∨ t = .closeCurly) (n : Option Char) : Reads t n := by
  rcases h with rfl | rfl <;> exact .inr ⟨trivial, fun _ _ => rfl⟩

theorem Tile.gapLit {p b : Nat} {ts ts' : List TokL} {loc : Loc} {h x y : Str} {is : List Item}
    (ht : Tile c p ts (.gap loc h :: .lit x y :: is) b ts') :
    ∃ t ts2, ts = t :: ts2 ∧ loc = ⟨p, t.l⟩ ∧ x = spell t.tok ∧ Tile c t.r ts2 is b ts' := by
  cases ht with
  | here ht =>
    cases ht with
    | lit h1 h2 h3 => exact ⟨_, _, rfl, rfl, h1, h3⟩
  | @gap _ _ t ts _ _ _ ht =>
    generalize hq : t.l = q at ht
    generalize hus : t :: ts = us at ht
    cases ht with
    | lit h1 h2 h3 => cases hus; exact ⟨_, _, rfl, by rw [← hq], h1, h3⟩

theorem kept_of_emits (hc : NoOptions c) {env : Env} (hr : env.posRange = none) {all : List TokL} (n : Nat) :
    ∀ {is : List Item} {a b : Nat} {ts ts' : List TokL} {pre s f r : Str}, is.length = n → Tile c a ts is b ts' →
    (∃ xs, all = xs ++ ts) → env.buf = pre ++ s → pre.length = a → TilesR s a ts →
    (∃ e, ts' = [e] ∧ e.tok = .eof ∧ b = e.l) →
    Emits False env c is f r → ∃ K, r = f ++ K ∧ Kept (Broken env.buf all) s K := by
  induction n using Nat.strongRecOn with
  | _ n ih =>
  intro is a b ts ts' pre s f r hn ht hall hb hl htl he hE
  cases ht with
  | nil =>
    obtain ⟨e, rfl, heo, hbe⟩ := he
    subst hbe
    rcases tiles_pos htl with ⟨_, _, rfl⟩ | ⟨_, _, h1, _⟩
    · cases hE with
      | free hf _ => cases hf
      | nil => exact ⟨[], by simp, .nil⟩
    · exact absurd heo h1
  | @here _ _ _ _ h is ht =>
    cases hE with
    | free hf _ => cases hf
    | gapRaw hx => exact absurd hr hx
    | @gap _ _ _ _ f1 _ hg hE =>
      obtain ⟨K, rfl, _, hK⟩ := hc.plainStep hr (a := pre) (g := []) (b := s) (by simpa using hb) (.inl .nil) (by simp [hl]) hg
      rw [hK .nil, List.append_nil] at hE
      exact ih is.length (by rw [← hn]; simp) rfl ht hall hb hl htl he hE
  | @extra _ _ _ _ h is ht =>
    cases hE with
    | free hf _ => cases hf
    | extraRaw hx => exact absurd hr hx
    | @extra _ _ _ f1 _ hg hE =>
      obtain ⟨K, rfl, _, hK⟩ := hc.plainStep hr (a := []) (g := []) (b := env.buf) (by simp) (.inl .nil) (by simp) hg
      rw [hK .nil, List.append_nil] at hE
      exact ih is.length (by rw [← hn]; simp) rfl ht hall hb hl htl he hE
  | @gap _ _ t ts _ h is ht =>
    cases hE with
    | free hf _ => cases hf
    | gapRaw hx => exact absurd hr hx
    | @gap _ _ _ _ f1 _ hg hE =>
      rcases htl with ⟨t1, rfl, t3, t4, t5⟩ | ⟨k, u, s', t1, rfl, t3, t4, t5, t6, t7, t8⟩
      · obtain ⟨K, rfl, hK, _⟩ := hc.plainStep hr (a := pre) (g := s) (b := []) (by simpa using hb) t3 (by simp [hl, t4]) hg
        obtain ⟨K', e1, e2⟩ := ih is.length (by rw [← hn]; simp) (pre := pre ++ s) (s := []) rfl ht hall (by simpa using hb) (by simp [hl, t4])
          (.inl ⟨t1, rfl, .inl .nil, by simp, t5⟩) he hE
        rw [e2.ofNil, List.append_nil] at e1
        exact ⟨K, e1, hK.kept⟩
      · obtain ⟨K, rfl, _, hK⟩ := hc.plainStep hr (a := pre) (g := k) (b := u ++ s') hb (.inl t3) (by simp [hl, t4]) hg
        obtain ⟨K', e1, e2⟩ := ih is.length (by rw [← hn]; simp) (pre := pre ++ k) (s := u ++ s') rfl ht hall (by simpa using hb) (by simp [hl, t4])
          (.inr ⟨[], u, s', t1, rfl, .nil, by simp, t5, t6, t7, t8⟩) he hE
        rw [hK t3] at e1
        exact ⟨k ++ K', by simp [e1], e2.prepend k⟩
  | @lit _ t ts _ src out is hsrc hout ht =>
    have hskip : ∀ xs, all = xs ++ (t :: ts) → ∃ xs, all = xs ++ ts := fun xs h => ⟨xs ++ [t], by simp [h]⟩
    obtain ⟨xs, hxs⟩ := hall
    rcases tiles_pos htl with ⟨t1, rfl, rfl⟩ | ⟨u, s', t1, rfl, t5, t6, t7, t8⟩
    · obtain ⟨e, h1, h2, h3⟩ := he
      subst h1
      exact absurd (ht.not_past rfl) (by simp)
    · cases hE with
      | free hf _ => cases hf
      | litRaw hx => exact absurd hr hx
      | lit hE =>
        obtain ⟨K, rfl, hK⟩ := ih is.length (by rw [← hn]; simp) (pre := pre ++ u) (s := s') rfl ht (hskip xs hxs) (by simpa using hb) (by simp [hl, t5])
          t8 he hE
        rw [hc.tokOut hout]
        refine ⟨spell t.tok ++ K, by simp, ?_⟩
        rcases t7 with ⟨rfl, _⟩ | ⟨x, e, h1, rfl, rfl, h2, _⟩
        · exact hK.prepend _
        · rw [hK.ofNil, h1, List.append_nil]
          rw [h1] at h2
          obtain ⟨y, rfl, hy⟩ := h2
          simpa [spell] using Kept.shebang hy
      | @emptyTable is loc h _ f1 _ hg hE =>
        obtain ⟨t2, ts2, rfl, rfl, hx2, ht2⟩ := ht.gapLit
        rcases t8 with ⟨q1, rfl, _⟩ | ⟨k, u2, s2, q1, rfl, q3, q4, q5, q6, q7, q8⟩
        · rw [q1] at hx2; cases hx2
        · have hu2 : u2 = ['}'] ∧ t2.tok = .closeCurly := by
            rcases q7 with ⟨rfl, q7⟩ | ⟨x, q7, _⟩
            · exact ⟨hx2.symm, reads_inj q7 (curly_reads (.inr rfl) _) (by rw [← hx2]; rfl)⟩
            · rw [q7] at hx2
              have := congrArg List.getLast? hx2
              simp [spell] at this
          have hu : u = ['{'] ∧ t.tok = .openCurly := by
            rcases t7 with ⟨rfl, q7⟩ | ⟨x, e, h1, _⟩
            · exact ⟨hsrc.symm, reads_inj q7 (curly_reads (.inl rfl) _) (by rw [← hsrc]; rfl)⟩
            · rw [h1] at hsrc
              have := congrArg List.getLast? hsrc
              simp [spell] at this
          obtain ⟨rfl, hu2⟩ := hu2
          obtain ⟨rfl, hu⟩ := hu
          obtain ⟨K, rfl, hK⟩ := ih is.length (by rw [← hn]; simp; omega) (pre := pre ++ '{' :: (k ++ ['}'])) (s := s2) rfl ht2
            ⟨xs ++ [t, t2], by simp [hxs]⟩ (by simpa using hb) (by simp [q5, q4, t5, hl]; omega) q8 he hE
          have hslice : (env.buf.drop t.r).take (t2.l - t.r) = k := by
            rw [hb, show pre ++ (['{'] ++ (k ++ (['}'] ++ s2))) = (pre ++ ['{']) ++ (k ++ ('}' :: s2)) by simp,
              List.drop_left' (by simp [hl, t5]), List.take_left' (by omega)]
          rcases hc.tableStep hr (a := pre ++ ['{']) (g := k) (b := '}' :: s2) (by simpa using hb) q3 (by simp [hl, t5, q4]) hg with rfl | ⟨hnl, rfl⟩
          · refine ⟨'{' :: (k ++ '}' :: K), by simp, ?_⟩
            exact .char _ (Kept.prepend (.char _ hK) k)
          · refine ⟨'{' :: (closing k ++ '}' :: K), by simp, ?_⟩
            by_cases hlast : k.getLast? = some '\n'
            · rw [closing_id hlast]
              exact .char _ (Kept.prepend (.char _ hK) k)
            · exact .emptyTable ⟨xs, t, t2, ts2, hxs, hu, hu2, by rw [hslice]; exact ⟨hnl, hlast⟩⟩ q3 hnl hK
  | @trailNone _ _ _ _ isF out is hF ht =>
    cases hE with
    | free hf _ => cases hf
    | trailRaw hx => exact absurd hr hx
    | trail bb hb' hE =>
      have : (if bb = true then f ++ out else f) = f := by
        cases bb with
        | false => rfl
        | true =>
          simp only [TrailOk, hc.bool] at hb'
          cases isF with
          | false => simp at hb'
          | true => simp at hb'
      rw [this] at hE
      exact ih is.length (by rw [← hn]; simp) rfl ht hall hb hl htl he hE
  | @trail _ t ts _ out is hF hout hcur ht =>
    obtain ⟨xs, hxs⟩ := hall
    rcases tiles_pos htl with ⟨t1, rfl, rfl⟩ | ⟨u, s', t1, rfl, t5, t6, t7, t8⟩
    · rw [t1] at hF; cases hF
    · cases hE with
      | free hf _ => cases hf
      | trailRaw hx => exact absurd hr hx
      | trail bb hb' hE =>
        rw [hc.str] at hout
        have hu : u = spell t.tok := by
          rcases t7 with ⟨h, _⟩ | ⟨x, e, h1, _⟩
          · exact h
          · rw [h1] at hF; cases hF
        have : bb = true := by
          simp only [TrailOk, hc.bool] at hb'
          rw [← hu] at hb'
          simpa [t6] using hb'
        subst this
        obtain ⟨K, rfl, hK⟩ := ih is.length (by rw [← hn]; simp) (pre := pre ++ u) (s := s') rfl ht ⟨xs ++ [t], by simp [hxs]⟩
          (by simpa using hb) (by simp [hl, t5]) t8 he hE
        refine ⟨u ++ K, ?_, hK.prepend u⟩
        rw [hout, hu]
        simp

/-! ### A newline behind the text -/

theorem finalGap_newline {g : Str} (h : FinalGap g) : Gap (g ++ ['\n']) := by
  have key : ∀ {a b : Str}, Gap a → Gap b → Gap (a ++ b) := by
    intro a b ha hb
    induction ha with
    | nil => exact hb
    | blank ch g hc _ ih => exact .blank ch _ hc ih
    | line t g hl _ ih =>
      have := Gap.line t _ hl ih
      simpa using this
    | long n b g hl _ ih =>
      have := Gap.long n b _ hl ih
      simpa using this
  rcases h with h | ⟨a, t, rfl, ha, ht⟩
  · exact key h (.blank '\n' [] (.inr (.inl rfl)) .nil)
  · have := key ha (Gap.line t [] ht .nil)
    simpa using this

theorem lexFrom_newline : ∀ {ts : List TokL} {e : TokL} {s : Str} {a : Nat}, e.tok = .eof → TilesR s a (ts ++ [e]) →
    ∃ ts' e', e'.tok = .eof ∧ lexFrom a (s ++ ['\n']) = some (ts' ++ [e']) ∧
      (ts' = ts ∨ ∃ xs y y' x, ts = xs ++ [y] ∧ ts' = xs ++ [y'] ∧ y.tok = .sheBang x ∧ y'.tok = .sheBang x)
  | [], e, s, a, he, h => by
    rcases h with ⟨_, _, h, _⟩ | ⟨_, _, _, h, _⟩
    · have := lexFrom_gap (finalGap_newline h) a []
      rw [List.append_nil, lexFrom_nil] at this
      exact ⟨[], _, rfl, this, .inl rfl⟩
    · exact absurd he h
  | t :: ts, e, s, a, he, h => by
    rcases h with ⟨_, h, _⟩ | ⟨g, u, s', h1, rfl, h3, h4, h5, h6, h7, h8⟩
    · simp at h
    · rcases h7 with ⟨rfl, hr⟩ | ⟨x, hx, rfl, rfl, hok⟩
      · have hr' : Reads t.tok (s' ++ ['\n']).head? := by
          cases s' with
          | nil => exact reads_safe hr (.inl (.inr (.inl rfl)))
          | cons y s' => exact hr
        obtain ⟨ts', e', k1, k2, k3⟩ := lexFrom_newline he h8
        refine ⟨t :: ts', e', k1, ?_, ?_⟩
        · rw [List.append_assoc, List.append_assoc, lexFrom_gap h3, lexFrom_tok (lexStep_ok _ t.tok _ hr')]
          rw [show a + g.length + (spell t.tok).length = t.r by omega, k2]
          simp only [Option.map_some, List.cons_append, Option.some.injEq, List.cons.injEq, and_true]
          cases t; simp_all
        · rcases k3 with rfl | ⟨xs, y, y', x, rfl, rfl, k4, k5⟩
          · exact .inl rfl
          · exact .inr ⟨t :: xs, y, y', x, rfl, rfl, k4, k5⟩
      · cases ts with
        | cons y ys =>
          rcases h8 with ⟨_, h, _⟩ | ⟨_, _, _, _, h, _, _, _, h9, _⟩
          · simp at h
          · simp at h
            exact absurd h.2.1 h9
        | nil =>
          have hr' : Reads (.sheBang u) ([] : Str).head? := by
            rw [hx] at hok
            exact .inr ⟨hok, fun _ h => nomatch h⟩
          refine ⟨[⟨t.l, .sheBang u, t.r + 1⟩], ⟨t.r + 1, .eof, t.r + 1⟩, rfl, ?_, .inr ⟨[], t, _, u, rfl, rfl, hx, rfl⟩⟩
          have := lexFrom_tok (lexStep_ok t.l (.sheBang u) [] hr')
          simp only [spell, lexFrom_nil, List.append_nil, Option.map_some, List.length_append, List.length_singleton] at this
          rw [List.append_nil, List.append_assoc, lexFrom_gap h3, ← h4, this, h5]
          simp [Nat.add_assoc]

end Luafmt
