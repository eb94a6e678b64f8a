import Verif.Spec.KeptLines
import Verif.Proofs.GapWrite

/-
The gap printer writes the newlines of a gap.
-/
namespace Luafmt
open Spec

variable {c : Config}

theorem breaks_append (a b : Str) : breaks (a ++ b) = breaks a + breaks b := List.count_append

theorem breaks_of_not_mem {s : Str} (h : '\n' ∉ s) : breaks s = 0 := List.count_eq_zero.mpr h

theorem breaks_space {s : Str} (h : ∀ ch ∈ s, IsSpace ch) : breaks s = 0 := breaks_of_not_mem (blank_of_space h).2

theorem breaks_tabs {s : Str} (h : Tabs s) : breaks s = 0 := by
  refine breaks_of_not_mem fun hm => ?_
  rcases h _ hm with h | h <;> exact absurd h (by decide)

/-- The writer adds at least `n` newlines. -/
def Adds (n : Nat) (f r : Str) : Prop := breaks f + n ≤ breaks r

theorem CEnv.put_adds {e : CEnv} {loc : Loc} {f r : Str} (h : e.put loc f = .ok r) : Adds 0 f r := by
  simp only [CEnv.put, Res.bind_eq_ok, Res.pure_eq, Res.ok.injEq] at h
  obtain ⟨s, _, rfl⟩ := h
  simp only [Adds, breaks_append]
  omega

theorem spaceHint_adds {e : CEnv} {loc : Loc} {h f r : Str} (hw : spaceHint e c loc h f = .ok r) : Adds 0 f r := by
  unfold spaceHint at hw
  split at hw
  · exact CEnv.put_adds hw
  split at hw
  · cases hw
    simp only [Adds, breaks_append]
    omega
  · exact CEnv.put_adds hw

theorem ifNewLine_adds {lvl : Int} {b : Bool} {w : Str → Str → Res Str} {h f r : Str} {n : Nat}
    (ha : ∀ h f r : Str, w h f = .ok r → Adds n f r) (hw : ifNewLine c lvl b w h f = .ok r) : Adds n f r := by
  cases b with
  | false =>
    simp only [ifNewLine, Bool.false_eq_true, if_false] at hw
    exact ha _ _ _ hw
  | true =>
    obtain ⟨K, hK, t, d, h1, h2, h3⟩ := ifNewLine_eff hw
    have hn := ha _ _ _ hK
    have hd := breaks_tabs h2
    simp only [Adds, h1, breaks_append, hd] at hn ⊢
    rw [show breaks [] = 0 from rfl] at hn
    have hcons : ∀ s : Str, breaks ('\n' :: s) = breaks s + 1 := fun s => List.count_cons_self
    rcases h3 with ⟨_, ⟨_, rfl⟩ | rfl⟩ | ⟨rfl, a, d', rfl, h4, _, ⟨_, rfl⟩ | rfl⟩
    · simp only [breaks_append]; omega
    · simp only [breaks_append]; omega
    · rw [show breaks [] = 0 from rfl] at hn
      simp only [breaks_append, breaks_tabs h4]; omega
    · rw [show breaks [] = 0 from rfl] at hn
      simp only [breaks_append, breaks_tabs h4]; omega

theorem Adds.trans {m n : Nat} {f g r : Str} (h : Adds m f g) (h' : Adds n g r) : Adds (m + n) f r := by
  unfold Adds at *; omega

theorem Adds.mono {m n : Nat} {f r : Str} (h : Adds m f r) (hn : n ≤ m) : Adds n f r := by
  unfold Adds at *; omega

/-- The newlines that the printer writes for tokens of a gap. -/
def breaksOf (c : Config) (ts : List CTokL) : Nat := (ts.map fun t => breaks (ctokText c t.tok)).sum

theorem breaksOf_append (a b : List CTokL) : breaksOf c (a ++ b) = breaksOf c a + breaksOf c b := by
  simp [breaksOf]

theorem ctokWrite_adds {e : CEnv} (he : e.range = none) {t : CTokL} {f r : Str} (hw : ctokWrite e c t f = .ok r) :
    Adds (breaks (ctokText c t.tok)) f r := by
  rw [ctokWrite, he, outOfRange_none] at hw
  cases hw
  simp [Adds, breaks_append]

theorem cgap_adds {e : CEnv} (hp : e.env.posRange = none) {nl : Bool} {loc : Loc} {h f r : Str}
    (hw : cgap e c nl loc h f = .ok r) : Adds 0 f r := by
  rw [cgap, hp, outOfRange_none, if_neg (by simp)] at hw
  exact ifNewLine_adds (fun _ _ _ => spaceHint_adds) hw

theorem crunRest_adds {e : CEnv} (he : e.range = none) (hp : e.env.posRange = none) {k : Bool} {ts : List CTokL} :
    ∀ {p : Nat} {f r : Str}, crunRest e c k (crunItems (some p) ts) f = .ok r → Adds (breaksOf c ts) f r := by
  induction ts with
  | nil => intro p f r hw; cases hw; simp [Adds, breaksOf]
  | cons t ts ih =>
    intro p f r hw
    simp only [crunItems, crunRest, Res.bind_eq_ok] at hw
    obtain ⟨f1, w1, f2, w2, w3⟩ := hw
    exact (((cgap_adds hp w1).trans (ctokWrite_adds he w2)).trans (ih w3)).mono (by simp [breaksOf])

theorem crunWrite_adds {e : CEnv} (he : e.range = none) (hp : e.env.posRange = none) {k : Bool} {ts : List CTokL} {sp : Loc}
    {f r : Str} (hw : crunWrite e c ⟨sp, k, crunItems none ts⟩ f = .ok r) : Adds (breaksOf c ts) f r := by
  rw [crunWrite, he, outOfRange_none] at hw
  cases ts with
  | nil => cases hw; simp [Adds, breaksOf]
  | cons t ts =>
    simp only [Bool.false_eq_true, if_false, crunItems, Res.bind_eq_ok] at hw
    obtain ⟨f1, w1, f2, w2, w3⟩ := hw
    exact (((ifNewLine_adds (fun _ _ _ => spaceHint_adds) w1).trans (ctokWrite_adds he w2)).trans (crunRest_adds he hp w3)).mono
      (by simp [breaksOf])

theorem cvariantRest_adds {e : CEnv} (he : e.range = none) (hp : e.env.posRange = none) {gs : List (Bool × List CTokL)} :
    ∀ {p : Nat} {f r : Str}, cvariantRest e c (cvariant (some p) gs) f = .ok r → Adds (breaksOf c (gs.flatMap (·.2))) f r := by
  induction gs with
  | nil => intro p f r hw; cases hw; simp [Adds, breaksOf]
  | cons q gs ih =>
    intro p f r hw
    simp only [cvariant, cvariantRest, Res.bind_eq_ok] at hw
    obtain ⟨f1, w1, f2, w2, w3⟩ := hw
    refine (((cgap_adds hp w1).trans (crunWrite_adds he hp w2)).trans (ih w3)).mono ?_
    rw [List.flatMap_cons, breaksOf_append]
    omega

theorem cchunk_adds {e : CEnv} (he : e.range = none) (hp : e.env.posRange = none) {ts : List CTokL}
    (hts : clex e.cbuf = some ts) {ch : CChunk} {f r : Str} (hc : parseComment e.cbuf = some ch)
    (hw : cchunkWrite e c ch f = .ok r) :
    Adds (breaksOf c ts) f r ∨
      c.bool .removeSingleNewlines = some true ∧ (∃ t, ts = [t] ∧ t.tok = .newLine) ∧ Adds 0 f r := by
  unfold parseComment at hc
  rw [hts] at hc
  rw [cchunkWrite, he, outOfRange_none] at hw
  simp only [Bool.false_eq_true, if_false, Res.bind_eq_ok] at hw
  obtain ⟨f1, w1, f2, w2, w3⟩ := hw
  have a1 := spaceHint_adds w1
  have a3 := spaceHint_adds w3
  cases ts with
  | nil =>
    cases hc
    have a2 : Adds 0 f1 f2 := by
      rw [cvariantWrite, he, outOfRange_none] at w2
      simp only [Bool.false_eq_true, if_false] at w2
      split at w2 <;> (cases w2; simp [Adds])
    exact .inl (((a1.trans a2).trans a3).mono (by simp [breaksOf]))
  | cons t ts =>
    cases hc
    obtain ⟨hg, hf⟩ := cgroup_ok (t :: ts)
    generalize cgroup (t :: ts) = gs at *
    cases gs with
    | nil => simp at hf
    | cons q gs =>
      obtain ⟨k, q⟩ := q
      simp only [cvariant] at w2
      rcases cvariantWrite_cases (by rw [he]; simp [outOfRange]) w2 with ⟨hs, h1, h2, h3, rfl⟩ | ⟨g1, g2, v1, v2, v3⟩
      · refine .inr ⟨hs, ?_, (a1.trans a3).mono (by omega)⟩
        cases gs with
        | cons _ _ => simp [cvariant] at h1
        | nil =>
          simp only at h2 h3
          subst h2
          obtain ⟨u, q, rfl⟩ := List.exists_cons_of_ne_nil (hg (false, q) (by simp)).1
          cases q with
          | cons _ _ => simp [crunItems] at h3
          | nil =>
            refine ⟨u, by simpa using hf.symm, ?_⟩
            have := (hg (false, [u]) (by simp)).2 u (by simp)
            revert this
            cases u.tok <;> simp [CTok.isComment]
      · left
        have a2 := ((ifNewLine_adds (fun _ _ _ => spaceHint_adds) v1).trans (crunWrite_adds he hp v2)).trans (cvariantRest_adds he hp v3)
        refine ((a1.trans a2).trans a3).mono ?_
        rw [← hf, List.flatMap_cons, breaksOf_append]
        show breaksOf c q + _ ≤ _
        omega

theorem ctokText_breaks (hc : KeepsLines c) {t : CTok} {u rest : Str} (h : CText t u rest) :
    breaks u ≤ breaks (ctokText c t) := by
  cases t with
  | newLine =>
    have hu : u = ['\n'] := h
    subst hu
    simp [ctokText, hc.all]
  | oneLine s =>
    have h1 : breaks u ≤ 1 := by
      rcases h with ⟨h1, rfl⟩ | ⟨_, t, h1, rfl, _⟩
      · have := breaks_of_not_mem h1.1
        rw [show '-' :: '-' :: (s ++ ['\n']) = L!"--" ++ (s ++ ['\n']) from rfl, breaks_append, breaks_append, this]
        decide
      · have := breaks_of_not_mem h1.1
        rw [show '-' :: '-' :: t = L!"--" ++ t from rfl, breaks_append, this]
        decide
    refine Nat.le_trans h1 ?_
    simp only [ctokText, if_neg hc.comments]
    have e1 : breaks ['\n'] = 1 := by decide
    split
    · split
      · decide
      · rw [breaks_append, e1]; omega
    · rw [breaks_append, e1]; omega
  | multiLine n s =>
    obtain ⟨_, rfl⟩ := h
    simp only [ctokText, if_neg hc.comments, hc.before, hc.after, opener, closer]
    refine Nat.le_of_eq (congrArg breaks ?_)
    simp

theorem CTiles.breaks (hc : KeepsLines c) {p : Nat} {s : Str} {ts : List CTokL} (h : CTiles p s ts) :
    Spec.breaks s ≤ breaksOf c ts := by
  induction h with
  | nil hs => rw [breaks_space hs]; omega
  | cons hb hu _ _ _ ih =>
    have := ctokText_breaks hc hu
    rw [breaks_append, breaks_append, breaks_space hb]
    simp only [breaksOf, List.map_cons, List.sum_cons] at ih ⊢
    omega

theorem CTiles.lone {p : Nat} {s : Str} {t : CTokL} (h : CTiles p s [t]) (ht : t.tok = .newLine) :
    Blank s ∧ Spec.breaks s = 1 := by
  cases h with
  | @cons _ b u s _ _ hb hu _ _ h =>
    cases h with
    | nil hs =>
      rw [ht] at hu
      have hu : u = ['\n'] := hu
      subst hu
      refine ⟨?_, ?_⟩
      · intro ch hm
        simp only [List.mem_append, List.mem_singleton] at hm
        rcases hm with hm | rfl | hm
        · exact (blank_of_space hb).1 ch hm
        · decide
        · exact (blank_of_space hs).1 ch hm
      · rw [breaks_append, breaks_append, breaks_space hb, breaks_space hs]
        decide

theorem commentHint_adds (hh : BlankHints c) (hc : KeepsLines c) {env : Env} (hr : env.posRange = none) {a g b : Str}
    (hbuf : env.buf = a ++ (g ++ b)) (hg : FinalGap g) {lvl : Int} {p q : Nat} (hp : p = a.length) (hq : q = a.length + g.length)
    {h f r : Str} (hw : commentHint env c lvl ⟨p, q⟩ h f = .ok r) :
    Adds 0 f r ∧ (¬ Lone c g → Adds (breaks g) f r) := by
  subst hp hq
  rw [commentHint, hr, outOfRange_none] at hw
  simp only [Bool.false_eq_true, if_false, Res.bind_eq_ok] at hw
  obtain ⟨cbuf, h1, hw⟩ := hw
  rw [substr_src hbuf] at h1
  cases h1
  split at hw
  · cases hw
  · next ch hch =>
    simp only [Res.bind_eq_ok] at hw
    obtain ⟨full, h2, hw⟩ := hw
    obtain ⟨ts, k1, k2, _⟩ := clex_gap hg
    have h3 := cchunk_adds (c := c) (e := ⟨env, g, a.length, commentRange none a.length, lvl⟩) rfl hr k1 hch h2
    split at hw
    · cases hw
    · next block hd =>
      cases hw
      have hfull : breaks full ≤ breaks [f.getLast?.getD ' '] + breaks block := by
        obtain ⟨K, _, e, _⟩ := cchunk_wrote (c := c) (NL := True) hh ⟨fun _ => trivial, fun _ => trivial, fun _ => trivial,
          fun _ _ _ _ _ => trivial⟩ (e := ⟨env, g, a.length, commentRange none a.length, lvl⟩)
          ⟨.inl rfl, .inl hr, a, b, rfl, hbuf⟩ k1 (k2.full fun hR => absurd hc.range hR.line) hch h2
        subst e
        simp only [List.cons_append, List.nil_append, dropBytes] at hd
        split at hd
        · next hsz =>
          have : 0 + 1 - (f.getLast?.getD ' ').utf8Size = 0 := by
            have := Char.utf8Size_pos (f.getLast?.getD ' ')
            omega
          rw [this] at hd
          simp only [dropBytes, Option.some.injEq] at hd
          rw [hd, breaks_append]
          omega
        · cases hd
      have hb : breaks block ≤ breaks (commentBlockText c h block) := by
        unfold commentBlockText
        split
        · next h => rw [h]; simp [breaks]
        · simp only [breaks_append]; omega
      have h0 : Adds 0 f (f ++ commentBlockText c h block) := by simp only [Adds, breaks_append]; omega
      refine ⟨h0, fun hl => ?_⟩
      rcases h3 with h3 | ⟨h3, ⟨t, rfl, h4⟩, _⟩
      · have := k2.breaks hc
        simp only [Adds, breaks_append] at h3 ⊢
        omega
      · exact absurd ⟨h3, k2.lone h4⟩ hl

/-! ### No more newlines -/

/-- The writer adds at most `n` newlines. -/
def Most (n : Nat) (f r : Str) : Prop := breaks r ≤ breaks f + n

theorem Most.trans {m n : Nat} {f g r : Str} (h : Most m f g) (h' : Most n g r) : Most (m + n) f r := by
  unfold Most at *; omega

theorem Most.mono {m n : Nat} {f r : Str} (h : Most m f r) (hn : m ≤ n) : Most n f r := by
  unfold Most at *; omega

/-- The tokens `ts` of the gap begin at `p` and are complete. -/
def CPos (e : CEnv) (ts : List CTokL) (p : Nat) : Prop :=
  ∃ pre suf, e.cbuf = pre ++ suf ∧ pre.length = p ∧ CFull True p suf ts

theorem CPos.gap {e : CEnv} (he : CCtx c True e) {t : CTokL} {ts : List CTokL} {p : Nat} (h0 : CPos e (t :: ts) p)
    {h f r : Str} (hn : '\n' ∉ h) (hw : spaceHint e c ⟨p, t.l⟩ h f = .ok r) : Most 0 f r ∧ CPos e (t :: ts) t.l := by
  obtain ⟨pre, suf, h1, h2, h3⟩ := h0
  cases h3 with
  | @cons _ b u s _ _ k1 k2 k3 k4 k5 =>
    refine ⟨?_, pre ++ b, u ++ s, by simp [h1], by simp [h2, k3], ?_⟩
    · have hput := he.put (f := f) (q := t.l) h1 h2.symm (by rw [k3, h2])
      rw [spaceHint, hput] at hw
      have hb := breaks_space k1
      split at hw
      · cases hw; simp [Most, breaks_append, hb]
      split at hw
      · cases hw; simp [Most, breaks_append, breaks_of_not_mem hn]
      · cases hw; simp [Most, breaks_append, hb]
    · have := CFull.cons (F := True) (p := t.l) (b := []) (by simp) k2 (by simp) k4 k5
      simpa using this

theorem CPos.tok {e : CEnv} {t : CTokL} {ts : List CTokL} {p : Nat} (h0 : CPos e (t :: ts) p) : CPos e ts t.r := by
  obtain ⟨pre, suf, h1, h2, h3⟩ := h0
  cases h3 with
  | @cons _ b u s _ _ k1 k2 k3 k4 k5 => exact ⟨pre ++ b ++ u, s, by simp [h1], by simp only [List.length_append]; omega, k5⟩

theorem ctokWrite_most {e : CEnv} (he : e.range = none) {t : CTokL} {f r : Str} (hw : ctokWrite e c t f = .ok r) :
    Most (breaks (ctokText c t.tok)) f r := by
  rw [ctokWrite, he, outOfRange_none] at hw
  cases hw
  simp [Most, breaks_append]

theorem ctokNewline_none (hc : SameLines c) (t : CTok) : ctokNewline c t = false := by
  cases t <;> simp only [ctokNewline, decide_eq_false_iff_not]
  all_goals exact fun h => hc.num _ _ h rfl

theorem ctokFirstNewline_none (hc : SameLines c) (t : CTok) : ctokFirstNewline c t = false := by
  cases t <;> simp only [ctokFirstNewline, decide_eq_false_iff_not]
  all_goals exact fun h => hc.num _ _ h rfl

theorem crunNewline_none {q : CTok → Bool} (hq : ∀ t, q t = false) (r : CRun) : crunNewline q r = false := by
  unfold crunNewline
  split
  · exact hq _
  · rfl

theorem ctokHint_none (hc : SameLines c) (t : CTok) : '\n' ∉ ctokHint c t := by
  have : '\n' ∉ (c.str .hintBeforeComment).getD [] := by
    cases h : c.str .hintBeforeComment with
    | none => simp
    | some s => exact hc.hint _ (by decide) s h
  cases t <;> simp only [ctokHint]
  · exact this
  · exact this
  · simp

theorem CPos.cgap {e : CEnv} (he : CCtx c True e) (hp : e.env.posRange = none) {t : CTokL} {ts : List CTokL} {p : Nat}
    (h0 : CPos e (t :: ts) p) {h f r : Str} (hn : '\n' ∉ h) (hw : Luafmt.cgap e c false ⟨p, t.l⟩ h f = .ok r) :
    Most 0 f r ∧ CPos e (t :: ts) t.l := by
  rw [Luafmt.cgap, hp, outOfRange_none, if_neg (by simp)] at hw
  exact h0.gap he hn (by simpa [ifNewLine] using hw)

theorem CPos.runRest (hc : SameLines c) {e : CEnv} (he : CCtx c True e) (hr : e.range = none) (hp : e.env.posRange = none)
    {k : Bool} {ts more : List CTokL} : ∀ {p : Nat} {f r : Str}, CPos e (ts ++ more) p →
    crunRest e c k (crunItems (some p) ts) f = .ok r → Most (breaksOf c ts) f r ∧ CPos e more (cendFrom p ts) := by
  induction ts with
  | nil => intro p f r h0 hw; cases hw; exact ⟨by simp [Most], h0⟩
  | cons t ts ih =>
    intro p f r h0 hw
    simp only [crunItems, crunRest, ctokNewline_none hc, Bool.and_false, Res.bind_eq_ok] at hw
    obtain ⟨f1, w1, f2, w2, w3⟩ := hw
    obtain ⟨a1, h1⟩ := CPos.cgap he hp h0 (ctokHint_none hc _) w1
    obtain ⟨a3, h3⟩ := ih h1.tok w3
    exact ⟨((a1.trans (ctokWrite_most hr w2)).trans a3).mono (by simp [breaksOf]), h3⟩

theorem CPos.run (hc : SameLines c) {e : CEnv} (he : CCtx c True e) (hr : e.range = none) (hp : e.env.posRange = none)
    {k : Bool} {t : CTokL} {ts more : List CTokL} {sp : Loc} {f r : Str} (h0 : CPos e (t :: ts ++ more) t.l)
    (hw : crunWrite e c ⟨sp, k, crunItems none (t :: ts)⟩ f = .ok r) :
    Most (breaksOf c (t :: ts)) f r ∧ CPos e more (cendFrom t.r ts) := by
  rw [crunWrite, hr, outOfRange_none] at hw
  simp only [Bool.false_eq_true, if_false, crunItems, Res.bind_eq_ok, ifNewLine] at hw
  obtain ⟨f1, w1, f2, w2, w3⟩ := hw
  obtain ⟨a1, h1⟩ := CPos.gap he h0 (by simp) w1
  obtain ⟨a3, h3⟩ := CPos.runRest hc he hr hp h1.tok w3
  exact ⟨((a1.trans (ctokWrite_most hr w2)).trans a3).mono (by simp [breaksOf]), h3⟩

theorem CPos.variantRest (hc : SameLines c) {e : CEnv} (he : CCtx c True e) (hr : e.range = none) (hp : e.env.posRange = none)
    {gs : List (Bool × List CTokL)} : ∀ {p : Nat} {f r : Str}, Groups gs → CPos e (gs.flatMap (·.2)) p →
    cvariantRest e c (cvariant (some p) gs) f = .ok r → Most (breaksOf c (gs.flatMap (·.2))) f r ∧
      CPos e [] (cendFrom p (gs.flatMap (·.2))) := by
  induction gs with
  | nil => intro p f r _ h0 hw; cases hw; exact ⟨by simp [Most], h0⟩
  | cons q gs ih =>
    intro p f r hg h0 hw
    obtain ⟨k, q⟩ := q
    obtain ⟨t, ts, rfl⟩ := List.exists_cons_of_ne_nil (hg (k, q) (by simp)).1
    simp only [cvariant, crunStart, cvariantRest, crunNewline_none (ctokNewline_none hc), Res.bind_eq_ok] at hw
    obtain ⟨f1, w1, f2, w2, w3⟩ := hw
    simp only [List.flatMap_cons] at h0 ⊢
    obtain ⟨a1, h1⟩ := CPos.cgap he hp h0 (by simp) w1
    obtain ⟨a2, h2⟩ := CPos.run (ts := ts) hc he hr hp h1 w2
    rw [crunEnd_eq] at w3
    obtain ⟨a3, h3⟩ := ih (fun g h => hg g (by simp [h])) h2 w3
    refine ⟨((a1.trans a2).trans a3).mono (by rw [breaksOf_append]; omega), ?_⟩
    have hend : ∀ (p : Nat) (a b : List CTokL), cendFrom p (a ++ b) = cendFrom (cendFrom p a) b := by
      intro p a b
      induction a generalizing p with
      | nil => rfl
      | cons y a ih => exact ih y.r
    rw [hend]
    exact h3

theorem CPos.final {e : CEnv} (he : CCtx c True e) {p : Nat} (h0 : CPos e [] p) {f r : Str}
    (hw : spaceHint e c ⟨p, e.cbuf.length⟩ [] f = .ok r) : Most 0 f r := by
  obtain ⟨pre, suf, h1, h2, h3⟩ := h0
  cases h3 with
  | nil hsp =>
    have hput := he.put (f := f) (x := pre) (y := suf) (z := []) (q := e.cbuf.length) (by simpa using h1) h2.symm (by rw [h1]; simp)
    rw [spaceHint, hput] at hw
    have hb := breaks_space hsp
    split at hw
    · cases hw; simp [Most, breaks_append, hb]
    split at hw
    · cases hw; simp [Most]
    · cases hw; simp [Most, breaks_append, hb]

theorem cchunk_most (hc : SameLines c) {e : CEnv} (he : CCtx c True e) (hr : e.range = none) (hp : e.env.posRange = none)
    {ts : List CTokL} (hts : clex e.cbuf = some ts) (hF : CFull True 0 e.cbuf ts) {ch : CChunk} {f r : Str}
    (hch : parseComment e.cbuf = some ch) (hw : cchunkWrite e c ch f = .ok r) : Most (breaksOf c ts) f r := by
  have h0 : CPos e ts 0 := ⟨[], e.cbuf, rfl, rfl, hF⟩
  unfold parseComment at hch
  rw [hts] at hch
  rw [cchunkWrite, hr, outOfRange_none] at hw
  simp only [Bool.false_eq_true, if_false, Res.bind_eq_ok] at hw
  obtain ⟨f1, w1, f2, w2, w3⟩ := hw
  cases ts with
  | nil =>
    cases hch
    have a1 := h0.final he w1
    have : f2 = f1 := by
      rw [cvariantWrite, hr, outOfRange_none] at w2
      simp only [Bool.false_eq_true, if_false] at w2
      split at w2 <;> (cases w2; rfl)
    subst this
    have h1 : CPos e [] e.cbuf.length := ⟨e.cbuf, [], by simp, rfl, .nil (by simp)⟩
    exact a1.trans (h1.final he w3)
  | cons t ts =>
    cases hch
    obtain ⟨a1, h1⟩ := h0.gap he (by simp) w1
    obtain ⟨hg, hf⟩ := cgroup_ok (t :: ts)
    have key : Most (breaksOf c (t :: ts)) f1 f2 ∧ CPos e [] (crunEnd (t :: ts)) := by
      generalize hgs : cgroup (t :: ts) = gs at *
      cases gs with
      | nil => simp at hf
      | cons q gs =>
        obtain ⟨k, q⟩ := q
        obtain ⟨t', q', hq'⟩ := List.exists_cons_of_ne_nil (hg (k, q) (by simp)).1
        simp only at hq'
        subst hq'
        simp only [List.flatMap_cons, List.cons_append, List.cons.injEq] at hf
        obtain ⟨rfl, rfl⟩ := hf
        have hend : ∀ (p : Nat) (a b : List CTokL), cendFrom p (a ++ b) = cendFrom (cendFrom p a) b := by
          intro p a b
          induction a generalizing p with
          | nil => rfl
          | cons y a ih => exact ih y.r
        simp only [cvariant, crunStart] at w2
        rcases cvariantWrite_cases (by rw [hr]; simp [outOfRange]) w2 with ⟨hs, k1, k2, k3, rfl⟩ | ⟨g1, g2, v1, v2, v3⟩
        · have hsingle : gs = [] ∧ q' = [] := by
            refine ⟨?_, ?_⟩
            · cases gs with
              | nil => rfl
              | cons _ _ => simp [cvariant] at k1
            · cases q' with
              | nil => rfl
              | cons _ _ => simp [crunItems] at k3
          clear k1 k2 k3
          obtain ⟨rfl, rfl⟩ := hsingle
          exact ⟨by simp [Most], h1.tok⟩
        · rw [crunNewline_none (ctokFirstNewline_none hc)] at v1
          simp only [ifNewLine, Bool.false_eq_true, if_false] at v1
          obtain ⟨b1, j1⟩ := h1.gap he (h := []) (by simp) v1
          obtain ⟨b2, j2⟩ := CPos.run (ts := q') hc he hr hp j1 v2
          rw [crunEnd_eq] at v3
          obtain ⟨b3, j3⟩ := CPos.variantRest hc he hr hp (fun g h => hg g (by simp [h])) j2 v3
          refine ⟨((b1.trans b2).trans b3).mono ?_, ?_⟩
          · rw [show t' :: (q' ++ gs.flatMap (·.2)) = (t' :: q') ++ gs.flatMap (·.2) from rfl, breaksOf_append]
            omega
          · rw [crunEnd_eq, hend]
            exact j3
    exact ((a1.trans key.1).trans (key.2.final he w3)).mono (by omega)

theorem ctokText_most (hh : BlankHints c) (hc : KeepsLines c) {t : CTok} {u rest : Str} (h : CText t u rest) (hw : CWhole t u) :
    breaks (ctokText c t) ≤ breaks u := by
  cases t with
  | newLine =>
    have hu : u = ['\n'] := hw
    subst hu
    simp [ctokText, hc.all]
  | oneLine s =>
    have hu : u = '-' :: '-' :: (s ++ ['\n']) := hw
    have hs : '\n' ∉ s := by
      rcases h with ⟨h1, _⟩ | ⟨_, t, h1, h2, _⟩
      · exact h1.1
      · rw [hu] at h2
        simp only [List.cons.injEq, true_and] at h2
        intro _
        exact h1.1 (by rw [← h2]; simp)
    subst hu
    have e1 : breaks ['\n'] = 1 := by decide
    rw [show '-' :: '-' :: (s ++ ['\n']) = L!"--" ++ (s ++ ['\n']) from rfl, breaks_append, breaks_append, e1]
    simp only [ctokText, if_neg hc.comments]
    have e2 : breaks L!"--" = 0 := by decide
    split
    · next p hp =>
      split
      · rw [show breaks L!"--\n" = 1 by decide]; omega
      · have : '\n' ∉ trimStart s := fun h => hs ((List.dropWhile_suffix _).subset h)
        simp only [breaks_append, e1, e2, breaks_of_not_mem (hh.oneline p hp).2.2, breaks_of_not_mem this]
        omega
    · simp only [breaks_append, e1, e2]; omega
  | multiLine n s =>
    have hu : u = '-' :: '-' :: (opener n ++ (s ++ closer n)) := hw
    subst hu
    simp only [ctokText, if_neg hc.comments, hc.before, hc.after, opener, closer]
    refine Nat.le_of_eq (congrArg breaks ?_)
    simp

theorem CFull.most (hh : BlankHints c) (hc : KeepsLines c) {p : Nat} {s : Str} {ts : List CTokL} (h : CFull True p s ts) :
    breaksOf c ts ≤ breaks s := by
  induction h with
  | nil hs => simp [breaksOf]
  | cons hb hu _ _ _ ih =>
    have := ctokText_most hh hc hu.1 (hu.2 trivial)
    rw [breaks_append, breaks_append]
    simp only [breaksOf, List.map_cons, List.sum_cons] at ih ⊢
    omega

theorem commentHint_most (hh : BlankHints c) (hc : SameLines c) {env : Env} (hr : env.posRange = none) {a g b : Str}
    (hbuf : env.buf = a ++ (g ++ b)) (hg : Gap g) {lvl : Int} {p q : Nat} (hp : p = a.length) (hq : q = a.length + g.length)
    {h f r : Str} (hn : '\n' ∉ h) (hw : commentHint env c lvl ⟨p, q⟩ h f = .ok r) : Most (breaks g) f r := by
  subst hp hq
  rw [commentHint, hr, outOfRange_none] at hw
  simp only [Bool.false_eq_true, if_false, Res.bind_eq_ok] at hw
  obtain ⟨cbuf, h1, hw⟩ := hw
  rw [substr_src hbuf] at h1
  cases h1
  split at hw
  · cases hw
  · next ch hch =>
    simp only [Res.bind_eq_ok] at hw
    obtain ⟨full, h2, hw⟩ := hw
    obtain ⟨ts, k1, k2, k3, _⟩ := clex_gap (.inl hg)
    have hF : CFull True 0 g ts := k2.full fun _ => (k3 hg).2
    have he : CCtx c True ⟨env, g, a.length, commentRange none a.length, lvl⟩ := ⟨.inl rfl, .inl hr, a, b, rfl, hbuf⟩
    have h3 := cchunk_most hc he rfl hr k1 hF hch h2
    have h4 := hF.most hh hc.toKeepsLines
    split at hw
    · cases hw
    · next block hd =>
      cases hw
      have hfull : breaks [f.getLast?.getD ' '] + breaks block ≤ breaks full := by
        obtain ⟨K, _, e, _⟩ := cchunk_wrote (c := c) (NL := True) hh ⟨fun _ => trivial, fun _ => trivial, fun _ => trivial,
          fun _ _ _ _ _ => trivial⟩ he k1 (k2.full fun hR => absurd hc.range hR.line) hch h2
        subst e
        simp only [List.cons_append, List.nil_append, dropBytes] at hd
        split at hd
        · next hsz =>
          have : 0 + 1 - (f.getLast?.getD ' ').utf8Size = 0 := by
            have := Char.utf8Size_pos (f.getLast?.getD ' ')
            omega
          rw [this] at hd
          simp only [dropBytes, Option.some.injEq] at hd
          rw [hd, ← breaks_append]
          exact Nat.le_of_eq rfl
        · cases hd
      have ho : ∀ o ∈ hintOptions, breaks ((c.str o).getD []) = 0 := by
        intro o ho
        cases hs : c.str o with
        | none => rfl
        | some s => exact breaks_of_not_mem (hc.hint o ho s hs)
      have hb : breaks (commentBlockText c h block) ≤ breaks block := by
        unfold commentBlockText
        split
        · split
          · rw [breaks_of_not_mem hn]; omega
          · simp [breaks]
        · simp only [breaks_append]
          have e1 := ho .hintBeforeComment (by decide)
          have e2 := ho .hintAfterMultilineComment (by decide)
          have e0 : breaks [] = 0 := rfl
          split <;> split <;> omega
      simp only [Most, breaks_append] at h3 ⊢
      omega

theorem Spec.SameLines.opt (hc : SameLines c) : ¬ NlOpt c := by
  rintro (⟨o, n, h, ha⟩ | h | h | h)
  · exact hc.num o n h ha
  · exact hc.eof h
  · exact hc.multiline h
  · exact hc.args h

theorem plainStep_most (hh : BlankHints c) (hc : SameLines c) {env : Env} (hr : env.posRange = none) {a k b : Str}
    (hbuf : env.buf = a ++ (k ++ b)) (hk : Gap k) {p q : Nat} (hp : p = a.length) (hq : q = a.length + k.length) {h f f' : Str}
    (hn : '\n' ∉ h) (hs : PlainStep env c ⟨p, q⟩ h f f') : Most (breaks k) f f' := by
  obtain ⟨p0, f0, g0, lvl, bb, rfl, rfl, h3, h4, _⟩ := hs
  cases bb with
  | true => exact absurd (h4 rfl) hc.opt
  | false =>
    have := commentHint_most hh hc hr hbuf hk hp hq hn (by simpa [ifNewLine] using h3)
    simp only [Most, breaks_append] at this ⊢
    omega

/-- The line breaks of the source text `s` are kept in the text `K`, and there are no more of them, but for the case `B`. -/
def KeptNl (c : Config) (B : Prop) (s K : Str) : Prop :=
  (KeepsLines c → breaks s ≤ breaks K ∨ Lone c s) ∧ (SameLines c → Gap s → B ∨ breaks K ≤ breaks s)

theorem KeptNl.nil {B : Prop} : KeptNl c B [] [] := ⟨fun _ => .inl (by simp [breaks]), fun _ _ => .inr (by simp [breaks])⟩

theorem KeptNl.of_not {B : Prop} {s K : Str} (h : ¬ KeepsLines c) : KeptNl c B s K :=
  ⟨fun hc => absurd hc h, fun hc => absurd hc.toKeepsLines h⟩

theorem KeptNl.mono {B B' : Prop} {s K : Str} (h : KeptNl c B s K) (hb : B → B') : KeptNl c B' s K :=
  ⟨h.1, fun hc hg => (h.2 hc hg).imp hb id⟩

theorem gapStep_kept (hh : BlankHints c) {env : Env} (hr : env.posRange = none ∨ c.lineRange ≠ none) {a k b : Str} (hbuf : env.buf = a ++ (k ++ b))
    (hk : FinalGap k) {p q : Nat} (hp : p = a.length) (hq : q = a.length + k.length) {h P g g' s : Str} {B : Prop}
    (hsk : KeepsLines c → s = [] ∨ k = []) (h0 : KeptNl c B s g) (hn : SameLines c → '\n' ∉ h)
    (hs : GapStep env c ⟨p, q⟩ h (P ++ g) (P ++ g')) (hs' : PlainStep env c ⟨p, q⟩ h (P ++ g) (P ++ g') ∨ B) :
    KeptNl c B (s ++ k) g' := by
  refine ⟨fun hc => ?_, fun hc hg => ?_⟩
  · have hr := hr.resolve_right (fun h => h hc.range)
    obtain ⟨p0, f0, g0, lvl, bb, h1, h2, h3, _⟩ := hs
    have a0 := ifNewLine_adds (fun _ _ _ h => (commentHint_adds hh hc hr hbuf hk hp hq h).1) h3
    have a1 := fun hl => ifNewLine_adds (fun _ _ _ h => (commentHint_adds hh hc hr hbuf hk hp hq h).2 hl) h3
    have e1 := congrArg breaks h1
    have e2 := congrArg breaks h2
    simp only [breaks_append, Adds] at *
    by_cases hl : Lone c k
    · rcases hsk hc with rfl | rfl
      · exact .inr hl
      · exact absurd hl.2.2 (by decide)
    · have a1 := a1 hl
      rcases h0.1 hc with h0 | h0
      · left; omega
      · rcases hsk hc with rfl | rfl
        · exact absurd h0.2.2 (by decide)
        · right; simpa using h0
  · rcases hs' with hs' | hB
    · have hr := hr.resolve_right (fun h => h hc.range)
      have hk' : Gap s ∧ Gap k := by
        rcases hsk hc.toKeepsLines with rfl | rfl
        · exact ⟨.nil, by simpa using hg⟩
        · exact ⟨by simpa using hg, .nil⟩
      refine (h0.2 hc hk'.1).imp id fun h0 => ?_
      have := plainStep_most hh hc hr hbuf hk'.2 hp hq (hn hc) hs'
      simp only [Most, breaks_append] at this ⊢
      omega
    · exact .inl hB

/-- The text ends with an opening brace and the next token is a closing one. -/
def Braces (P : Str) (ts : List TokL) : Prop := lastOr ' ' P = '{' ∧ ∃ t us, ts = t :: us ∧ spell t.tok = ['}']

theorem text_no_brace {es : List Elem} {s : Str} (h : Text es s) (hc : Comments es) : s.getLast? ≠ some '{' := by
  induction h with
  | nil => simp
  | @blank es ch s hb _ ih =>
    rw [List.getLast?_cons]
    have := ih hc
    cases hs : s.getLast? with
    | none =>
      simp only [Option.getD_none, ne_eq, Option.some.injEq]
      rintro rfl
      exact absurd hb (by decide)
    | some y => rw [hs] at this; simpa using this
  | @elem e es s _ _ ih =>
    have h1 := ih fun e h => hc e (by simp [h])
    rw [List.getLast?_append]
    cases hs : s.getLast? with
    | some y => rw [hs] at h1; simpa using h1
    | none =>
      simp only [Option.none_or]
      have := hc e (by simp)
      cases e with
      | tok => cases this
      | line t =>
        rw [show (Elem.line t).text = ('-' :: '-' :: t) ++ ['\n'] from by simp [Elem.text], List.getLast?_append]
        simp
      | long n t =>
        have : ∃ u, (Elem.long n t).text = u ++ [']'] := ⟨'-' :: '-' :: (opener n ++ (t ++ (']' :: eqs n))), by simp [Elem.text, closer, eqs]⟩
        obtain ⟨u, hu⟩ := this
        rw [hu, List.getLast?_append]
        simp

end Luafmt
