import Verif.Proofs.Output
import Verif.Proofs.LuaString
import Verif.Spec.Layout

/-
What a rendering says about the elements of the output.
-/
namespace Luafmt
open Spec

variable {c : Config} {NL : Prop}

/-! ### Tokens -/

theorem NumReads.finished {s : Str} {m n : Option Char} (h : NumReads s m) (hf : ¬ UnfinishedNumeral s)
    (hn : n = none ∨ n = some '-') : NumReads s n := by
  cases h with
  | hex k _ a b d =>
    refine .hex k n a ?_ ?_
    · rintro ch rfl
      rcases hn with hn | hn
      · cases hn
      · cases hn; decide
    · rintro rfl
      exact absurd (.inl rfl) hf
  | plain _ _ a b d =>
    refine .plain s n a ?_ ?_
    · rintro ch rfl
      rcases hn with hn | hn
      · cases hn
      · cases hn; decide
    · rintro _ rfl
      rcases hn with hn | hn <;> cases hn
  | exp m e k _ a b d f g =>
    refine .exp m e k n a b d ?_ ?_
    · rintro ch rfl
      rcases hn with hn | hn
      · cases hn
      · cases hn; decide
    · rintro rfl
      refine absurd (.inr ⟨?_, ?_⟩) hf
      · rintro ⟨r, hr⟩
        cases a with
        | digit y ys h1 h2 =>
          rw [List.cons_append] at hr
          cases ys with
          | nil =>
            simp only [List.nil_append, List.cons_append, List.cons.injEq] at hr
            rcases b with b | b <;> rw [b] at hr <;> exact absurd hr.2.1 (by decide)
          | cons z zs =>
            simp only [List.nil_append, List.cons_append, List.cons.injEq] at hr
            have := h2 z (by simp)
            rw [← hr.2.1] at this
            exact absurd this (by decide)
        | dot y ys h1 h2 =>
          simp only [List.nil_append, List.cons_append, List.cons.injEq] at hr
          exact absurd hr.1 (by decide)
      · rcases b with b | b
        · exact .inl ⟨m, by rw [b]⟩
        · exact .inr (.inl ⟨m, by rw [b]⟩)
  | expNeg m e k _ a b d f g =>
    refine .expNeg m e k n a b d ?_ ?_
    · rintro ch rfl
      rcases hn with hn | hn
      · cases hn
      · cases hn; decide
    · rintro rfl
      refine absurd (.inr ⟨?_, ?_⟩) hf
      · rintro ⟨r, hr⟩
        cases a with
        | digit y ys h1 h2 =>
          rw [List.cons_append] at hr
          cases ys with
          | nil =>
            simp only [List.nil_append, List.cons_append, List.cons.injEq] at hr
            rcases b with b | b <;> rw [b] at hr <;> exact absurd hr.2.1 (by decide)
          | cons z zs =>
            simp only [List.nil_append, List.cons_append, List.cons.injEq] at hr
            have := h2 z (by simp)
            rw [← hr.2.1] at this
            exact absurd this (by decide)
        | dot y ys h1 h2 =>
          simp only [List.nil_append, List.cons_append, List.cons.injEq] at hr
          exact absurd hr.1 (by decide)
      · rcases b with b | b
        · exact .inr (.inr (.inl ⟨m, by rw [b]⟩))
        · exact .inr (.inr (.inr ⟨m, by rw [b]⟩))

theorem Reads.none {t : Token} {m : Option Char} (h : Reads t m) (hf : ∀ s, t = .numeral s → ¬ UnfinishedNumeral s) :
    Reads t none := by
  rcases h with ⟨s, rfl, h⟩ | ⟨h, _⟩
  · exact .inl ⟨s, rfl, h.finished (hf s rfl) (.inl rfl)⟩
  · exact .inr ⟨h, fun _ h => by cases h⟩

theorem Reads.dash {t : Token} {m : Option Char} (h : Reads t m) (hf : ∀ s, t = .numeral s → ¬ UnfinishedNumeral s)
    (hm : t ≠ .minus) : Reads t (some '-') := by
  rcases h with ⟨s, rfl, h⟩ | ⟨h, _⟩
  · exact .inl ⟨s, rfl, h.finished (hf s rfl) (.inr rfl)⟩
  · refine .inr ⟨h, fun ch hc => ?_⟩
    cases hc
    cases t <;> first | rfl | exact absurd rfl hm

theorem reads_sep {t : Token} (h : isFieldSep t = true) (n : Option Char) : Reads t n := by
  rcases isFieldSep_cases h with rfl | rfl <;> exact .inr ⟨trivial, fun _ _ => rfl⟩

theorem reads_shebang {y : Str} (h : TokOk (.sheBang y)) (n : Option Char) : Reads (.sheBang y) n :=
  .inr ⟨h, fun _ _ => rfl⟩

theorem fieldSep_or {t : Token} (h : isFieldSep t = true) : t = .comma ∨ t = .semicolon := isFieldSep_cases h

theorem count_convert (esc : Bool) (s : Str) : (charToNormalGo esc s).count '\n' = s.count '\n' := by
  induction s generalizing esc with
  | nil => rfl
  | cons ch s ih =>
    simp only [charToNormalGo]
    split
    · next h =>
      have : ch = '"' := by simp at h; exact h.1
      subst this
      simp [ih]
    · simp [List.count_cons, ih]

/-- The token written for a token of the source. -/
theorem TokNew.token {t t' : Token} (h : TokNew c t t') (ht : t ≠ .eof) :
    TokenRewrite c t t' ∧ t' ≠ .eof ∧ (∀ n, Reads t n → Reads t' n) ∧ (t = .closeCurly → t' = t) ∧
      (spell t').count '\n' = (spell t).count '\n' ∧
      ((spell t').head? = (spell t).head? ∨ ∃ ch, (spell t').head? = some ch ∧ SafeCh ch) ∧
      (∀ n, Reads t n → lastOr ' ' (spell t') = '\n' → ∃ y, t = .sheBang y) := by
  rcases h with rfl | ⟨s, rfl, h1, rfl⟩ | ⟨h1, ht', h2⟩
  · refine ⟨.inl rfl, ht, fun _ h => h, fun _ => rfl, rfl, .inl rfl, fun n h hl => ?_⟩
    obtain ⟨ch, h1, _, _, h4⟩ := reads_last h
    refine h4 ?_
    rw [lastOr, h1] at hl
    exact hl
  · refine ⟨.inr (.inl ⟨s, _, rfl, rfl, h1, fun v h => convert_run false .plain s (by simp [Agree]) v h⟩), by simp,
      ?_, by simp, ?_, .inr ⟨'"', rfl, by unfold SafeCh; simp⟩, ?_⟩
    · intro n hr
      rcases hr with ⟨_, h, _⟩ | ⟨h, _⟩
      · cases h
      · exact .inr ⟨strState_convert false s h, fun _ _ => rfl⟩
    · simp [spell, charToNormal, count_convert, List.count_append]
    · intro n _ hl
      simp [lastOr, spell, List.getLast?_cons, List.getLast?_append] at hl
  · refine ⟨.inr (.inr ⟨isFieldSep_cases h1, isFieldSep_cases ht', h2⟩), ?_, fun n _ => reads_sep ht' n, ?_,
      ?_, ?_, ?_⟩
    · rintro rfl; cases ht'
    · rintro rfl; cases h1
    · rcases isFieldSep_cases h1 with rfl | rfl <;> rcases isFieldSep_cases ht' with rfl | rfl <;> rfl
    · rcases isFieldSep_cases ht' with rfl | rfl
      · exact .inr ⟨',', rfl, by unfold SafeCh; simp⟩
      · exact .inr ⟨';', rfl, by unfold SafeCh; simp⟩
    · intro n _ hl
      rcases isFieldSep_cases ht' with rfl | rfl <;> exact absurd hl (by decide)

/-! ### The token before a rendering is delimited -/

theorem HeadRel.reads {p : Token} {m : Option Char} {s K : Str} (h : HeadRel s K) (hp : Reads p m)
    (hs : s ≠ [] → Reads p s.head?) (hk : s = [] → K = [] → Reads p none) : Reads p K.head? := by
  rcases h with ⟨rfl, rfl⟩ | ⟨ch, h, hb⟩ | ⟨h1, h2⟩
  · exact hk rfl rfl
  · rw [h]; exact reads_safe hp (.inl hb)
  · rw [h2]
    refine hs ?_
    rintro rfl
    obtain ⟨y, l, rfl⟩ := List.exists_cons_of_ne_nil h1
    cases h2

theorem head_ne {s t : Str} (h : s ≠ []) : (s ++ t).head? = s.head? := by
  obtain ⟨y, l, rfl⟩ := List.exists_cons_of_ne_nil h
  rfl

theorem gap_of_text {es : List Elem} {s : Str} (h : Text es s) (hc : Comments es) : Gap s := by
  induction h with
  | nil => exact .nil
  | blank hb _ ih => exact .blank _ _ hb (ih hc)
  | @elem e es s he _ ih =>
    have ih := ih fun e h => hc e (by simp [h])
    have h1 := hc e (by simp)
    cases e with
    | tok => cases h1
    | line t =>
      have := Gap.line t s he ih
      simpa [Elem.text] using this
    | long n t =>
      have := Gap.long n t s he ih
      simpa [Elem.text] using this

theorem gap_head {g : Str} (h : Gap g) : g = [] ∨ ∃ ch, g.head? = some ch ∧ (IsBlank ch ∨ ch = '-') := by
  cases h with
  | nil => exact .inl rfl
  | blank ch g hb _ => exact .inr ⟨ch, rfl, .inl hb⟩
  | line => exact .inr ⟨'-', rfl, .inr rfl⟩
  | long => exact .inr ⟨'-', rfl, .inr rfl⟩

/-- The token before the text between two tokens is delimited, if that text is not empty. -/
theorem wrote_reads {p : Token} {x : Char} {m : Option Char} {s : Str} {es es' : List Elem} {K R : Str} {toks : List Token}
    (hk : KeepsApart c toks) (hw : Wrote c NL x s es es' K) (hb : HintedComments c → some p = some .minus → HeadOk s K)
    (hx : x = '\n' → ∃ y, p = .sheBang y) (hp : Reads p m) (hn : ∀ s, p = .numeral s → ¬ UnfinishedNumeral s)
    (hs : s ≠ [] → Reads p s.head?) (hne : K ≠ []) : Reads p (K ++ R).head? := by
  rw [head_ne hne]
  by_cases hsh : Shrinks c
  · rcases hk.1 with hk | ⟨_, h2, _⟩
    · exact absurd hsh hk
    · by_cases hm : p = .minus
      · rcases hb h2 (by rw [hm]) with (h | ⟨ch, h, hb⟩) | h
        · exact absurd h hne
        · rw [h]; exact reads_safe hp (.inl hb)
        · rw [h]
          refine hs ?_
          rintro rfl
          exact hne (List.head?_eq_none_iff.mp h)
      · rcases gap_head (gap_of_text hw.text hw.com) with h | ⟨ch, h, hb | rfl⟩
        · exact absurd h hne
        · rw [h]; exact reads_safe hp (.inl hb)
        · rw [h]; exact hp.dash hn hm
  · rcases hw.head with h | h | h
    · exact absurd h hsh
    · obtain ⟨y, rfl⟩ := hx h
      rcases hp with ⟨_, h, _⟩ | ⟨h, _⟩
      · cases h
      · exact reads_shebang h _
    · exact h.reads hp hs (fun _ h => absurd h hne)

/-- The same if the text between the tokens is empty. -/
theorem wrote_reads_nil {p t : Token} {x : Char} {m n : Option Char} {s R : Str} {es es' : List Elem} {toks : List Token}
    (hk : KeepsApart c (p :: t :: toks)) (hw : Wrote c NL x s es es' []) (hsep : SepAt c (some p) x t s [])
    (hx : x = '\n' → ∃ y, p = .sheBang y) (hp : Reads p m) (ht : Reads t n)
    (hs : s = [] → Reads p (spell t ++ R).head?) : Reads p (spell t ++ R).head? := by
  by_cases hxn : x = '\n'
  · obtain ⟨y, rfl⟩ := hx hxn
    rcases hp with ⟨_, h, _⟩ | ⟨h, _⟩
    · cases h
    · exact reads_shebang h _
  rcases hk.1 with hsh | ⟨h1, h2, h3⟩
  · refine hs ?_
    rcases hw.head with h | h | h
    · exact absurd h hsh
    · exact absurd h hxn
    · rcases h with ⟨_, h⟩ | ⟨_, h, _⟩ | ⟨h, _⟩
      · exact h
      · cases h
      · exact absurd rfl h
  · rcases hsep.pair h1 hxn rfl with hpo | hs0
    case inr => exact hs hs0
    have := hpo p rfl
    have hq : sqLong p t = false := by
      cases hq : sqLong p t with
      | false => rfl
      | true =>
        unfold sqLong at hq
        split at hq
        · exact absurd (List.prefix_append [_, _] toks).isInfix (h3 _ _)
        · cases hq
    rw [hq, Bool.or_false] at this
    exact reads_adj hp ht this R

theorem spell_ne {t : Token} {n : Option Char} (h : Reads t n) : spell t ≠ [] := by
  obtain ⟨ch, h, _⟩ := reads_last h
  intro h'
  rw [h'] at h
  cases h

/-- The token before a rendering is read back from the output if it is read from the source. -/
theorem Render.next (hh : BlankHints c) {N q : Nat} {T : Bool} {p : Token} {x : Char} {sg s R : Str} {esG : List Elem} {ts : List TokL} {os : List TokL}
    (h : Render c NL N q T (some p) x sg esG ts os s R) (hk : KeepsApart c (p :: ts.map (·.tok)))
    (hx : x = '\n' → ∃ y, p = .sheBang y) (hp : Reads p (sg ++ s).head?) : Reads p R.head? := by
  have hnum : ∀ s, p = .numeral s → ¬ UnfinishedNumeral s := fun s h => hk.2 s (by simp [h])
  generalize hpv : some p = pv at h
  cases h with
  | @done _ _ _ _ _ _ _ _ _ _ _ he hf ht hw hb _ =>
    by_cases hK : R = []
    · subst hK; exact hp.none hnum
    · have := wrote_reads (R := []) hk hw (fun h1 h2 => hb h1 (hpv ▸ h2)) hx hp hnum (fun _ => hp) hK
      simpa using this
  | @tok _ _ _ _ _ g u s' K R' _ _ _ t ts' t' os' hne hg hgap hu hur hw hsep hout hpos _ hr =>
    subst hpv
    obtain ⟨_, _, _, _, _, hhead, _⟩ := hout.token hne
    have htr : ∃ n, Reads t.tok n := by
      rcases hur with ⟨_, h⟩ | ⟨y, e, h1, h2, h3, h4, h5⟩
      · exact ⟨_, h⟩
      · exact ⟨none, by rw [h1] at h4 ⊢; exact reads_shebang h4 _⟩
    obtain ⟨n, htr⟩ := htr
    by_cases hK : K = []
    · subst hK
      have hsp := spell_ne htr
      have hnil : Reads p (spell t.tok ++ R').head? := by
        refine wrote_reads_nil hk hw hsep hx hp htr (fun hs => ?_)
        rw [head_ne hsp]
        have hu' : u.head? = (spell t.tok).head? := by
          rcases hur with ⟨h, _⟩ | ⟨y, e, h1, h2, h3, h4, h5⟩
          · rw [h]
          · rw [h1, spell, h2, head_ne (by rw [← h2]; exact hu)]
        rw [← List.append_assoc, hs, List.nil_append, head_ne hu, hu'] at hp
        exact hp
      rw [List.nil_append]
      rcases hhead with h | ⟨ch, h, hs⟩
      · have : spell t'.tok ≠ [] := by
          intro h'
          rw [h'] at h
          exact hsp (List.head?_eq_none_iff.mp h.symm)
        rw [head_ne this, h, ← head_ne (t := R') hsp]
        exact hnil
      · obtain ⟨r, hr⟩ : ∃ r, spell t'.tok = ch :: r := by
          cases hq : spell t'.tok with
          | nil => rw [hq] at h; cases h
          | cons y r => rw [hq] at h; cases h; exact ⟨r, rfl⟩
        rw [hr]
        exact reads_safe hp hs
    · refine wrote_reads hk hw hsep.head hx hp hnum (fun hs => ?_) hK
      rw [← List.append_assoc, head_ne hs] at hp
      exact hp
  | @drop _ _ _ _ g s' _ _ _ t ts' os' hfs hm hg hgap hcur hopt hr =>
    subst hpv
    have hm' : p ≠ .minus := fun h => hm (by rw [h])
    obtain ⟨v, vs, rfl, hv⟩ := hcur
    generalize hts : v :: vs = ts at hr
    generalize hpv : some p = pv at hr
    cases hr with
    | done he => cases hts; rw [hv] at he; cases he
    | @tok _ _ _ _ _ g2 u s2 K R' _ _ _ t2 ts2 t' os' hne hg2 hgap2 hu hur hw hsep hout hpos hr =>
      cases hts
      subst hpv
      obtain ⟨_, _, _, hcc, _⟩ := hout.token hne
      have := hcc hv
      rw [this, hv]
      by_cases hK : K = []
      · subst hK
        exact reads_safe hp (by unfold SafeCh; simp)
      · refine wrote_reads hk hw hsep.head hx hp hnum (fun hs => ?_) hK
        by_cases hs' : sg ++ g = []
        · rw [hs', List.nil_append] at hs ⊢
          rcases gap_head hgap2 with h | ⟨ch, h, hb⟩
          · exact absurd h hs
          · rw [h]
            rcases hb with hb | rfl
            · exact reads_safe hp (.inl hb)
            · exact hp.dash hnum hm'
        · rw [← List.append_assoc, head_ne hs'] at hp
          rw [head_ne hs']
          exact hp
  | @add _ _ _ _ g s' K R' _ _ _ ts' sep os' hg hgap hcur hopt hfs hsp hw hsep hpos hr =>
    subst hpv
    by_cases hK : K = []
    · subst hK
      rcases isFieldSep_cases hfs with e | e <;> rw [e]
      · exact reads_safe (c := ',') hp (by unfold SafeCh; simp)
      · exact reads_safe (c := ';') hp (by unfold SafeCh; simp)
    · refine wrote_reads hk hw hsep.head hx hp hnum (fun hs => ?_) hK
      rw [← List.append_assoc, head_ne hs] at hp
      exact hp

/-! ### The elements of the output -/

/-- `Read q es os s`: the text consists of these elements and the lexer reads it like this; if the text is at the position
`q`, its tokens are `os`. -/
inductive Read : Nat → List Elem → List TokL → Str → Prop
  | final {q : Nat} {es : List Elem} {s : Str} : Text es s → Comments es → Read q es [] s
  | tok {q : Nat} {es fs : List Elem} {os : List TokL} {g s : Str} {t : TokL} : Text es g → Comments es →
      Reads t.tok s.head? → t.l = q + g.length ∧ t.r = t.l + (spell t.tok).length → Read t.r fs os s →
      Read q (es ++ .tok t.tok :: fs) (t :: os) (g ++ (spell t.tok ++ s))

theorem tokensOf_append (es fs : List Elem) : tokensOf (es ++ fs) = tokensOf es ++ tokensOf fs := by
  induction es with
  | nil => rfl
  | cons e es ih => cases e <;> simp [tokensOf, ih]

theorem tokensOf_comments {es : List Elem} (h : Comments es) : tokensOf es = [] := by
  induction es with
  | nil => rfl
  | cons e es ih =>
    have := h e (by simp)
    cases e with
    | tok => cases this
    | _ => exact ih fun e he => h e (by simp [he])

theorem comments_of_tokensOf {es : List Elem} (h : tokensOf es = []) : Comments es := by
  induction es with
  | nil => intro _ h; cases h
  | cons e es ih =>
    cases e with
    | tok => cases h
    | _ =>
      intro e he
      rcases List.mem_cons.mp he with rfl | he
      · rfl
      · exact ih h e he

theorem beforeCurly_comments {es fs : List Elem} (h : Comments es) (hf : BeforeCurly fs) : BeforeCurly (es ++ fs) := by
  induction es with
  | nil => exact hf
  | cons e es ih =>
    have := h e (by simp)
    cases e with
    | tok => cases this
    | _ => exact ih fun e he => h e (by simp [he])

/-- Comments rewritten to comments can be split. -/
theorem rewrites_split {G A ks : List Elem} (hG : Comments G) (hk : Comments ks) (h : Rewrites c (G ++ A) ks) :
    ∃ k1 k2, ks = k1 ++ k2 ∧ Rewrites c G k1 ∧ Rewrites c A k2 := by
  induction G generalizing ks with
  | nil => exact ⟨[], ks, rfl, .nil, h⟩
  | cons e G ih =>
    have he := hG e (by simp)
    have hG' : Comments G := fun e h => hG e (by simp [h])
    generalize hE : e :: G ++ A = E at h
    cases h with
    | nil => cases hE
    | tok => cases hE; cases he
    | comment h1 h2 h3 =>
      cases hE
      obtain ⟨k1, k2, rfl, h4, h5⟩ := ih hG' (fun e h => hk e (by simp [h])) h3
      exact ⟨_ :: k1, k2, rfl, .comment h1 h2 h4, h5⟩
    | noComment h1 h2 h3 =>
      cases hE
      obtain ⟨k1, k2, rfl, h4, h5⟩ := ih hG' hk h3
      exact ⟨k1, k2, rfl, .noComment h1 h2 h4, h5⟩
    | kept h1 h2 h3 =>
      cases hE
      obtain ⟨k1, k2, rfl, h4, h5⟩ := ih hG' (fun e h => hk e (by simp [h])) h3
      exact ⟨_ :: k1, k2, rfl, .kept h1 h2 h4, h5⟩
    | dropSep => cases hE; cases he
    | addSep => exact absurd (hk _ List.mem_cons_self) (by simp [Elem.isComment])

theorem Spec.Clean.suffix {s t : Str} (h : Clean s) (ht : t <:+ s) : Clean t := fun ⟨n, hn⟩ => h ⟨n, hn.trans ht⟩

/-- The lexer reads these elements. -/
def LexedAs (es : List Elem) (s : Str) : Prop := ∀ p, ∃ toks, lexFrom p s = some toks ∧ Reading es s p toks

theorem LexedAs.tok {cs es : List Elem} {g u s : Str} {t : Token} (hg : Gap g) (hc : Comments cs) (hT : Text cs g) (ht : t ≠ .eof)
    (hl : ∀ p, lexStep ⟨p, u ++ s⟩ = .tok p t (p + u.length) ⟨p + u.length, s⟩) (h : LexedAs es s) :
    LexedAs (cs ++ .tok t :: es) (g ++ (u ++ s)) := by
  intro p
  obtain ⟨toks, h1, h2⟩ := h (p + g.length + u.length)
  refine ⟨⟨p + g.length, t, p + g.length + u.length⟩ :: toks, ?_, .inr ⟨cs, g, u, s, es, ht, rfl, rfl, hc, hT, rfl, rfl, h2⟩⟩
  rw [lexFrom_gap hg, lexFrom_tok (hl _), h1]
  rfl

theorem reading_prepend {cs : List Elem} {g : Str} (hc : Comments cs) (hT : Text cs g) {toks : List TokL} {es : List Elem}
    {s : Str} {p : Nat} (h : Reading es s (p + g.length) toks) : Reading (cs ++ es) (g ++ s) p toks := by
  cases toks with
  | nil => exact h.elim
  | cons t ts =>
    rcases h with ⟨h1, h2, h3, h4, h5⟩ | ⟨cs', g', u, s', es', h1, rfl, rfl, h4, h5, h6, h7, h8⟩
    · refine .inl ⟨h1, h2, Comments.append hc h3, ?_, by simp [h5]; omega⟩
      rw [List.append_assoc]
      exact hT.append h4
    · exact .inr ⟨cs ++ cs', g ++ g', u, s', es', h1, by simp, by simp, Comments.append hc h4, hT.append h5, by simp [h6]; omega, h7, h8⟩

theorem LexedAs.prepend {cs es : List Elem} {g s : Str} (hg : Gap g) (hc : Comments cs) (hT : Text cs g) (h : LexedAs es s) :
    LexedAs (cs ++ es) (g ++ s) := by
  intro p
  obtain ⟨toks, h1, h2⟩ := h (p + g.length)
  exact ⟨toks, by rw [lexFrom_gap hg, h1], reading_prepend hc hT h2⟩

theorem LexedAs.final {es : List Elem} {s : Str} (hg : FinalGap s) (hc : Comments es) (hT : Text es (s ++ ['\n'])) : LexedAs es s :=
  fun p => ⟨_, lexFrom_final hg p, .inl ⟨rfl, rfl, hc, hT, rfl⟩⟩

theorem text_end {es : List Elem} {s : Str} (h : Text es s) : Text es (s ++ ['\n']) := by
  induction h with
  | nil => exact .blank (.inr (.inl rfl)) .nil
  | blank hb _ ih => exact .blank hb ih
  | elem he _ ih => rw [List.append_assoc]; exact .elem he ih

theorem lexStep_shebang_end {x : Str} (h : TokOk (.sheBang x)) (p : Nat) :
    lexStep ⟨p, x ++ []⟩ = .tok p (.sheBang x) (p + x.length) ⟨p + x.length, []⟩ := by
  obtain ⟨y, rfl, hn⟩ := h
  have := getShebangEnds_eof (p + 2) y hn
  simp [lexStep, single, double, lexHash, this]
  omega

/-- The elements of a rendering. -/
theorem Render.elems (hh : BlankHints c) {N q : Nat} {T : Bool} {pv : Option Token} {x : Char} {sg s R : Str} {esG : List Elem}
    {ts : List TokL} {os : List TokL} (h : Render c NL N q T pv x sg esG ts os s R) (hG : Comments esG) :
    ∃ fs es', (Clean s → Text fs (s ++ ['\n']) ∧ LexedAs fs s) ∧ tokensOf fs ++ [.eof] = ts.map (·.tok) ∧ Rewrites c (esG ++ fs) es' ∧
      Text es' R ∧ tokensOf es' = os.map (·.tok) ∧ (AtCurly ts → BeforeCurly fs) ∧ (KeepsApart c (pv.toList ++ ts.map (·.tok)) → Read q es' os R) ∧
      (T = true → AtCurly ts → ∃ A B ks bs, fs = A ++ .tok .closeCurly :: B ∧ es' = ks ++ .tok .closeCurly :: bs ∧
        Comments A ∧ Comments ks ∧ Rewrites c (esG ++ A) ks ∧ Rewrites c B bs) := by
  induction h with
  | @done q T pv x sg s K esG es es' e he hf ht hw hb _ =>
    refine ⟨es, es', fun hc => ⟨ht.1 hc, .final hf ht.2 (ht.1 hc)⟩, ?_, hw.rew, hw.text, tokensOf_comments hw.com, ?_, fun _ => .final hw.text hw.com, ?_⟩
    · rw [tokensOf_comments ht.2]; simp [he]
    · rintro ⟨v, vs, h1, h2⟩; cases h1; rw [he] at h2; cases h2
    · rintro _ ⟨v, vs, h1, h2⟩; cases h1; rw [he] at h2; cases h2
  | @tok q T pv x sg g u s K R esG es es' t ts t' os hne hg hgap hu hur hw hsep hout hpos _ hr ih =>
    obtain ⟨fs, es2, h1, h2, h3, h4, h40, h5, h6, _⟩ := ih (fun _ h => (by cases h))
    obtain ⟨hrw, hne', hrd, hcc, _, _, hlast⟩ := hout.token hne
    rw [List.nil_append] at h3
    have hrest : KeepsApart c (pv.toList ++ (t :: ts).map (·.tok)) → KeepsApart c (t.tok :: ts.map (·.tok)) := by
      intro hk
      refine ⟨?_, fun s hs => hk.2 s (by
        rw [List.map_cons]; exact List.mem_append_right _ hs)⟩
      rcases hk.1 with h | ⟨a, b, d⟩
      · exact .inl h
      · refine .inr ⟨a, b, fun n s hi => d n s (hi.trans ?_)⟩
        rw [List.map_cons]
        exact (List.suffix_append _ _).isInfix
    have hread : KeepsApart c (pv.toList ++ (t :: ts).map (·.tok)) → Read q (es' ++ .tok t'.tok :: es2) (t' :: os) (K ++ (spell t'.tok ++ R)) := by
      intro hk
      have hk' := hrest hk
      have hrs : Reads t.tok s.head? := by
        rcases hur with ⟨_, h⟩ | ⟨y, e, h1, h2, h3, h4, h5⟩
        · exact h
        · rw [h1] at h4 ⊢; exact reads_shebang h4 _
      refine .tok hw.text hw.com (hrd _ (Render.next hh hr hk' (hlast _ hrs) (by simpa using hrs))) hpos (h6 hk')
    have hR : Rewrites c (esG ++ (es ++ .tok t.tok :: fs)) (es' ++ .tok t'.tok :: es2) := by
      rw [← List.append_assoc]
      exact hw.rew.append (.tok hrw h3)
    have hcur : AtCurly (t :: ts) → BeforeCurly (es ++ .tok t.tok :: fs) := by
      rintro ⟨v, vs, e1, e2⟩
      cases e1
      exact beforeCurly_comments hg.2 e2
    have hT : Text (es' ++ .tok t'.tok :: es2) (K ++ (spell t'.tok ++ R)) := hw.text.append (.elem (e := .tok t'.tok) hne' h4)
    have hO : tokensOf (es' ++ .tok t'.tok :: es2) = (t' :: os).map (·.tok) := by
      rw [tokensOf_append, tokensOf_comments hw.com]
      simp [tokensOf, h40]
    have hS : T = true → AtCurly (t :: ts) → ∃ A B ks bs, es ++ .tok t.tok :: fs = A ++ .tok .closeCurly :: B ∧
        es' ++ .tok t'.tok :: es2 = ks ++ .tok .closeCurly :: bs ∧
        Comments A ∧ Comments ks ∧ Rewrites c (esG ++ A) ks ∧ Rewrites c B bs := by
      rintro _ ⟨v, vs, e1, e2⟩
      cases e1
      have := hcc e2
      exact ⟨es, fs, es', es2, by rw [e2], by rw [this, e2], hg.2, hw.com, hw.rew, h3⟩
    rcases hur with ⟨rfl, hrs⟩ | ⟨y, e, a1, a2, a3, a4, a5, a6⟩
    · refine ⟨es ++ .tok t.tok :: fs, es' ++ .tok t'.tok :: es2, fun hc => ?_, ?_, hR, hT, hO, hcur, hread, hS⟩
      · have := h1 (hc.suffix ((List.suffix_append _ _).trans (List.suffix_append _ _)))
        refine ⟨?_, .tok hgap hg.2 hg.1 hne (fun p => lexStep_ok p _ _ hrs) this.2⟩
        rw [List.append_assoc, List.append_assoc]
        exact hg.1.append (.elem (e := .tok t.tok) hne this.1)
      · rw [tokensOf_append, tokensOf_comments hg.2]
        simp [tokensOf, h2]
    · subst a3 a5
      have hfs : fs = [] := by
        have : tokensOf fs = [] := by simpa [a6] using h2
        refine text_newline (h1 ?_).1 (comments_of_tokensOf this)
        rintro ⟨n, hn⟩
        have := hn.length_le
        simp at this
      refine ⟨es ++ .tok t.tok :: fs, es' ++ .tok t'.tok :: es2, fun hc => ?_, ?_, hR, hT, hO, hcur, hread, hS⟩
      · refine ⟨?_, .tok hgap hg.2 hg.1 hne (fun p => by rw [a2, a1]; exact lexStep_shebang_end (a1 ▸ a4) p)
          (by rw [hfs]; exact .final (.inl .nil) (fun _ h => (by cases h)) (.blank (.inr (.inl rfl)) .nil))⟩
        rw [hfs, List.append_nil, List.append_assoc, a2]
        refine hg.1.append ?_
        have := Text.elem (e := .tok t.tok) hne .nil
        rw [List.append_nil] at this
        rw [a1] at this ⊢
        exact this
      · rw [tokensOf_append, tokensOf_comments hg.2]
        simp [tokensOf, h2]
  | @drop q pv x sg g s R esG es t ts os hfs hm hg hgap hcur hopt hr ih =>
    obtain ⟨fs, es2, h1, h2, h3, h4, h40, h5, h6, h7⟩ := ih (Comments.append hG hg.2)
    obtain ⟨A, B, ks, bs, rfl, rfl, hA, hks, hAk, hB⟩ := h7 rfl hcur
    obtain ⟨k1, k2, rfl, hr1, hr2⟩ := rewrites_split (Comments.append hG hg.2) hks hAk
    have hne : t.tok ≠ .eof := by intro h; rw [h] at hfs; cases hfs
    refine ⟨es ++ .tok t.tok :: (A ++ .tok .closeCurly :: B), k1 ++ k2 ++ .tok .closeCurly :: bs, fun hc => ?_, ?_, ?_, h4, h40, ?_, ?_, ?_⟩
    · have := h1 (hc.suffix ((List.suffix_append _ _).trans (List.suffix_append _ _)))
      refine ⟨?_, .tok hgap hg.2 hg.1 hne (fun p => lexStep_ok p _ _ (reads_sep hfs _)) this.2⟩
      rw [List.append_assoc, List.append_assoc]
      exact hg.1.append (.elem (e := .tok t.tok) hne this.1)
    · rw [tokensOf_append, tokensOf_comments hg.2]
      simp only [tokensOf, List.nil_append, List.cons_append, h2, List.map_cons]
    · rw [← List.append_assoc, List.append_assoc k1]
      refine hr1.append (.dropSep (isFieldSep_cases hfs) (beforeCurly_comments hA rfl) hopt ?_)
      exact hr2.append (.tok (.inl rfl) hB)
    · rintro ⟨v, vs, e1, e2⟩
      cases e1
      rw [e2] at hfs; cases hfs
    · intro hk
      refine h6 ⟨?_, fun s hs => hk.2 s ?_⟩
      · rcases hk.1 with h | ⟨a, b, d⟩
        · exact .inl h
        · refine .inr ⟨a, b, fun n s hi => ?_⟩
          obtain ⟨v, vs, e1, e2⟩ := hcur
          rw [e1, List.map_cons, e2] at hi
          have hq : [Token.openSquare, .multiLineString n s] <:+: vs.map (·.tok) := by
            cases pv with
            | none =>
              simp only [Option.toList_none, List.nil_append, List.infix_cons_iff, List.cons_prefix_cons] at hi
              rcases hi with ⟨h, _⟩ | hi
              · cases h
              · exact hi
            | some p =>
              simp only [Option.toList_some, List.cons_append, List.nil_append, List.infix_cons_iff, List.cons_prefix_cons] at hi
              rcases hi with ⟨_, h, _⟩ | ⟨h, _⟩ | hi
              · cases h
              · cases h
              · exact hi
          refine d n s (hq.trans ?_)
          rw [e1, List.map_cons, List.map_cons]
          exact ((List.suffix_cons _ _).trans ((List.suffix_cons _ _).trans (List.suffix_append _ _))).isInfix
      · rw [List.map_cons]
        rcases List.mem_append.mp hs with h | h
        · exact List.mem_append_left _ h
        · exact List.mem_append_right _ (List.mem_cons_of_mem _ h)
    · rintro h; cases h
  | @add q pv x sg g s K R esG es es' ts sep os hg hgap hcur hopt hfs hsp hw hsep hpos hr ih =>
    obtain ⟨fs, es2, h1, h2, h3, h4, h40, h5, h6, _⟩ := ih (fun _ h => (by cases h))
    have hne : sep.tok ≠ .eof := by intro h; rw [h] at hfs; cases hfs
    refine ⟨es ++ fs, es' ++ .tok sep.tok :: es2, fun hc => ?_, ?_, ?_, hw.text.append (.elem (e := .tok sep.tok) hne h4), ?_, ?_, ?_, ?_⟩
    · have := h1 (hc.suffix (List.suffix_append _ _))
      refine ⟨?_, .prepend hgap hg.2 hg.1 this.2⟩
      rw [List.append_assoc]
      exact hg.1.append this.1
    · rw [tokensOf_append, tokensOf_comments hg.2]
      exact h2
    · rw [← List.append_assoc]
      rw [List.nil_append] at h3
      exact hw.rew.append (.addSep (isFieldSep_cases hfs) (h5 hcur) hopt hsp h3)
    · rw [tokensOf_append, tokensOf_comments hw.com]
      simp [tokensOf, h40]
    · intro h
      exact beforeCurly_comments hg.2 (h5 hcur)
    · intro hk
      refine .tok hw.text hw.com (reads_sep hfs _) hpos (h6 ?_)
      refine ⟨?_, fun s hs => hk.2 s ?_⟩
      · rcases hk.1 with h | ⟨a, b, d⟩
        · exact .inl h
        · refine .inr ⟨a, b, fun n s hi => ?_⟩
          simp only [Option.toList_some, List.cons_append, List.nil_append, List.infix_cons_iff, List.cons_prefix_cons] at hi
          rcases hi with ⟨h, _⟩ | hi
          · rw [← h] at hfs; cases hfs
          · exact d n s (hi.trans (List.suffix_append _ _).isInfix)
      · simp only [Option.toList_some, List.cons_append, List.nil_append, List.mem_cons] at hs
        rcases hs with h | h
        · rw [← h] at hfs; cases hfs
        · exact List.mem_append_right _ h
    · rintro h; cases h

/-! ### The output is read back -/

theorem Read.woven {q : Nat} {es : List Elem} {os : List TokL} {s : Str} (h : Read q es os s) :
    ∃ l e, s = weave l e ∧ Woven l e ∧ l.map Prod.snd = tokensOf es := by
  induction h with
  | @final q es s ht hc => exact ⟨[], s, rfl, .inl (gap_of_text ht hc), (tokensOf_comments hc).symm⟩
  | @tok q es fs os g s t ht hc hr _ _ ih =>
    obtain ⟨l, e, rfl, hw, hm⟩ := ih
    refine ⟨(g, t.tok) :: l, e, rfl, ⟨gap_of_text ht hc, hr, hw⟩, ?_⟩
    rw [tokensOf_append, tokensOf_comments hc]
    simp [tokensOf, hm]

/-- The lexer reads the tokens. -/
theorem Read.toksOf {q : Nat} {es : List Elem} {os : List TokL} {s : Str} (h : Read q es os s) :
    toksOf s = some (tokensOf es ++ [.eof]) := by
  obtain ⟨l, e, rfl, hw, hm⟩ := h.woven
  rw [← hm]
  exact lexFrom_weave l e hw 0

/-- The lexer reads the elements. -/
theorem Read.lexed {q : Nat} {es : List Elem} {os : List TokL} {s : Str} (h : Read q es os s) : LexedAs es s := by
  induction h with
  | @final q es s ht hc => exact .final (.inl (gap_of_text ht hc)) hc (text_end ht)
  | @tok q es fs os g s t ht hc hr _ _ ih =>
    refine .tok (gap_of_text ht hc) hc ht ?_ (fun p => lexStep_ok p _ _ hr) ih
    intro e
    rw [e] at hr
    rcases hr with ⟨x, hx, _⟩ | ⟨hx, _⟩ <;> cases hx

/-- The lexer reads the tokens at their positions. -/
theorem Read.lex {q : Nat} {es : List Elem} {os : List TokL} {s : Str} (h : Read q es os s) :
    lexFrom q s = some (os ++ [⟨q + s.length, .eof, q + s.length⟩]) := by
  induction h with
  | @final q es s ht hc => exact lexFrom_final (.inl (gap_of_text ht hc)) q
  | @tok q es fs os g s t ht hc hr hp _ ih =>
    obtain ⟨l, tok, r⟩ := t
    simp only at hp hr ih
    obtain ⟨rfl, rfl⟩ := hp
    rw [lexFrom_gap (gap_of_text ht hc), lexFrom_tok (lexStep_ok _ _ _ hr), ih]
    simp [Nat.add_assoc]

theorem toksOf_some {s : Str} {toks : List Token} (h : toksOf s = some toks) :
    ∃ ts, lexLua s = some ts ∧ ts.map (·.tok) = toks := by
  unfold toksOf at h
  simpa using h

/-! ### Newlines -/

theorem newlines_nil {K : Str} (h : '\n' ∉ K) : K.count '\n' = 0 := List.count_eq_zero.mpr h

/-- If no newlines are written between tokens, those of the output are the ones inside the tokens. -/
theorem Render.newlines (hh : BlankHints c) (hn : ¬ NL) {N q : Nat} {T : Bool} {pv : Option Token} {x : Char} {sg s R : Str}
    {esG : List Elem} {ts : List TokL} {os : List TokL} (h : Render c NL N q T pv x sg esG ts os s R) :
    R.count '\n' = (ts.map fun t => (spell t.tok).count '\n').sum := by
  induction h with
  | done he hf ht hw hb _ =>
    rw [newlines_nil (hw.nl hn)]
    simp [he, spell]
  | tok hne hg hgap hu hur hw hsep hout hpos _ hr ih =>
    obtain ⟨_, _, _, _, hcnt, _⟩ := hout.token hne
    simp [List.count_append, newlines_nil (hw.nl hn), hcnt, ih]
  | drop hfs hm hg hgap hcur hopt hr ih =>
    rcases isFieldSep_cases hfs with h | h <;> simp [h, ih, spell]
  | add hg hgap hcur hopt hfs hsp hw hsep hpos hr ih =>
    rcases isFieldSep_cases hfs with h | h <;>
      simp [h, ih, List.count_append, newlines_nil (hw.nl hn), spell]

/-- What printing does to the elements of a program, with the rendering. -/
theorem tree_elems_render {W : Prop} (hh : BlankHints c) {src out : Str} {tree : Node} {ms : List (Nat × Mk)} {pr : Option (Nat × Nat)}
    (hr : SourceOk c src pr) (hp : parseLua src = some tree) (hE : LEmits W ⟨src, pr⟩ c none (tree.items c) ms [] out) :
    ∃ toks e os es es', lexLua src = some (toks ++ [e]) ∧ e.tok = .eof ∧
      Outs c (Marked c ms out) (toks ++ [e]) (tree.items c) [e] os ∧ os.map (·.tok) = tokensOf es' ∧
      toks.map (·.tok) = tokensOf es ∧
      (Clean src → ElementsOf src es) ∧ Rewrites c es es' ∧ Text es' out ∧
      (KeepsApart c (tokensOf es) → Read 0 es' os out) ∧ Spaced W c none 0 ' ' os out ∧
      Render c True src.length 0 false none ' ' [] [] (toks ++ [e]) os src out := by
  obtain ⟨toks, e, os, h1, h2, h0, hsp, h3⟩ := tree_render (NL := True) hh ⟨fun _ => trivial, fun _ => trivial, fun _ => trivial,
    fun _ _ _ _ _ => trivial⟩ (hr.ranged trivial) hr.gap hp hE
  obtain ⟨fs, es', h4, h5, h6, h7, h9, _, h8, _⟩ := h3.elems hh (fun _ h => (by cases h))
  have h5' : toks.map (·.tok) = tokensOf fs := by
    rw [List.map_append, List.map_singleton, h2] at h5
    exact (List.append_cancel_right h5).symm
  refine ⟨toks, e, os, fs, es', h1, h2, h0, h9.symm, h5', fun hc => (h4 hc).2 0, h6, h7, fun hk => h8 ?_, hsp, h3⟩
  rw [Option.toList_none, List.nil_append, List.map_append, h5', List.map_singleton, h2]
  refine ⟨?_, fun s hs => hk.2 s (by simpa using hs)⟩
  rcases hk.1 with h | ⟨a, b, d⟩
  · exact .inl h
  · refine .inr ⟨a, b, fun n s hi => d n s ?_⟩
    rcases List.infix_concat_iff.mp hi with hi | hi
    · obtain ⟨r, hr⟩ := hi
      have := congrArg List.getLast? hr
      simp at this
    · exact hi

/-- What printing does to the elements of a program. -/
theorem tree_elems {W : Prop} (hh : BlankHints c) {src out : Str} {tree : Node} {ms : List (Nat × Mk)} {pr : Option (Nat × Nat)}
    (hr : SourceOk c src pr) (hp : parseLua src = some tree) (hE : LEmits W ⟨src, pr⟩ c none (tree.items c) ms [] out) :
    ∃ toks e os es es', lexLua src = some (toks ++ [e]) ∧ e.tok = .eof ∧
      Outs c (Marked c ms out) (toks ++ [e]) (tree.items c) [e] os ∧ os.map (·.tok) = tokensOf es' ∧
      toks.map (·.tok) = tokensOf es ∧
      (Clean src → ElementsOf src es) ∧ Rewrites c es es' ∧ Text es' out ∧
      (KeepsApart c (tokensOf es) → Read 0 es' os out) ∧ Spaced W c none 0 ' ' os out := by
  obtain ⟨toks, e, os, es, es', h1, h2, h3, h4, h5, h6, h7, h8, h9, h10, _⟩ := tree_elems_render hh hr hp hE
  exact ⟨toks, e, os, es, es', h1, h2, h3, h4, h5, h6, h7, h8, h9, h10⟩

end Luafmt
