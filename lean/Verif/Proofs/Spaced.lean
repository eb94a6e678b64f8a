import Verif.Proofs.RangeElems
import Verif.Proofs.LinesTree
import Verif.Proofs.SameTree

/-
The blanks between the tokens of the output, by position.
-/
namespace Luafmt
open Spec

variable {c : Config}

theorem Read.reads {q : Nat} {es : List Elem} {os : List TokL} {s : Str} (h : Read q es os s) :
    ∀ t ∈ os, ∃ n, Reads t.tok n := by
  induction h with
  | final => intro t h; cases h
  | tok _ _ hr _ _ ih =>
    intro t h
    rcases List.mem_cons.mp h with rfl | h
    · exact ⟨_, hr⟩
    · exact ih t h

/-- A token other than the shebang line does not end with a newline. -/
theorem last_ne_newline {t : Token} (h : ∃ n, Reads t n) (hs : isSheBang t = false) : lastOr ' ' (spell t) ≠ '\n' := by
  obtain ⟨n, h⟩ := h
  obtain ⟨ch, h1, _, _, h4⟩ := reads_last h
  rw [lastOr, h1]
  intro e
  obtain ⟨s, rfl⟩ := h4 e
  cases hs

theorem slice_at {D K E : Str} {a b : Nat} (ha : a = D.length) (hb : b = a + K.length) :
    ((D ++ (K ++ E)).drop a).take (b - a) = K := by
  subst ha
  subst hb
  rw [List.drop_append_of_le_length (Nat.le_refl _), List.drop_length, List.nil_append, Nat.add_sub_cancel_left,
    List.take_append_of_le_length (Nat.le_refl _), List.take_length]

theorem Spaced.first {W : Prop} {pw : Option Token} {q : Nat} {x : Char} {t : TokL} {os : List TokL} {R : Str}
    (h : Spaced W c pw q x (t :: os) R) (hc : Regular c) (hx : x ≠ '\n') {D : Str} (hD : q = D.length)
    (h1 : '\n' ∉ ((D ++ R).drop q).take (t.l - q)) (h2 : '-' ∉ ((D ++ R).drop q).take (t.l - q)) :
    SpaceOk c pw t.tok (((D ++ R).drop q).take (t.l - q)) := by
  cases h with
  | tok hs _ _ _ hp _ =>
    rw [slice_at hD hp.1] at h1 h2 ⊢
    exact hs hc hx h1 h2

theorem Spaced.next {W : Prop} {pw : Option Token} {q : Nat} {x : Char} {t : TokL} {os : List TokL} {R D : Str}
    (h : Spaced W c pw q x (t :: os) R) (hD : q = D.length) :
    ∃ D' R', D ++ R = D' ++ R' ∧ t.r = D'.length ∧ Spaced W c (some t.tok) t.r (lastOr ' ' (spell t.tok)) os R' := by
  cases h with
  | @tok _ _ _ _ _ K R hs _ _ _ hp h =>
    refine ⟨D ++ K ++ spell t.tok, R, by simp, ?_, h⟩
    rw [hp.2, hp.1, hD]
    simp only [List.length_append]

theorem Spaced.pair {W : Prop} {os : List TokL} : ∀ {pre : List TokL} {pw : Option Token} {q : Nat} {x : Char} {R D : Str} {p t : TokL},
    Spaced W c pw q x (pre ++ p :: t :: os) R → Regular c → q = D.length → lastOr ' ' (spell p.tok) ≠ '\n' →
    '\n' ∉ ((D ++ R).drop p.r).take (t.l - p.r) → '-' ∉ ((D ++ R).drop p.r).take (t.l - p.r) →
    SpaceOk c (some p.tok) t.tok (((D ++ R).drop p.r).take (t.l - p.r))
  | [], pw, q, x, R, D, p, t, h, hc, hD, hx, h1, h2 => by
    obtain ⟨D', R', e, hD', h'⟩ := h.next hD
    rw [e] at h1 h2 ⊢
    exact h'.first hc hx hD' h1 h2
  | a :: pre, pw, q, x, R, D, p, t, h, hc, hD, hx, h1, h2 => by
    obtain ⟨D', R', e, hD', h'⟩ := Spaced.next h hD
    rw [e] at h1 h2 ⊢
    exact h'.pair hc hD' hx h1 h2

theorem Spaced.last {W : Prop} : ∀ {pre : List TokL} {pw : Option Token} {q : Nat} {x : Char} {R D : Str} {p : TokL},
    Spaced W c pw q x (pre ++ [p]) R → Regular c → q = D.length → lastOr ' ' (spell p.tok) ≠ '\n' →
    '\n' ∉ (D ++ R).drop p.r → '-' ∉ (D ++ R).drop p.r → (D ++ R).drop p.r = []
  | [], pw, q, x, R, D, p, h, hc, hD, hx, h1, h2 => by
    obtain ⟨D', R', e, hD', h'⟩ := h.next hD
    rw [e, hD', List.drop_append_of_le_length (Nat.le_refl _), List.drop_length, List.nil_append] at h1 h2 ⊢
    cases h' with
    | done he _ _ _ => exact he hc hx h1 h2
  | a :: pre, pw, q, x, R, D, p, h, hc, hD, hx, h1, h2 => by
    obtain ⟨D', R', e, hD', h'⟩ := Spaced.next h hD
    rw [e] at h1 h2 ⊢
    exact h'.last hc hD' hx h1 h2

/-- What comes next behind a token. -/
theorem Spaced.pairNext {W : Prop} {os : List TokL} : ∀ {pre : List TokL} {pw : Option Token} {q : Nat} {x : Char} {R D : Str} {p t : TokL},
    Spaced W c pw q x (pre ++ p :: t :: os) R → Regular c → Narrow c → q = D.length → lastOr ' ' (spell p.tok) ≠ '\n' →
    spell p.tok ≠ [] → Next c (((D ++ R).drop p.r).take (t.l - p.r))
  | [], pw, q, x, R, D, p, t, h, hc, hn, hD, hx, hne => by
    have hpr : p.r ≠ 0 := by
      cases h with
      | tok _ _ _ _ hp _ =>
        have := List.length_pos_iff.mpr hne
        omega
    obtain ⟨D', R', e, hD', h'⟩ := h.next hD
    rw [e]
    cases h' with
    | tok _ hs _ _ hp _ =>
      rw [slice_at hD' hp.1]
      exact hs hpr hc hn hx
  | a :: pre, pw, q, x, R, D, p, t, h, hc, hn, hD, hx, hne => by
    obtain ⟨D', R', e, hD', h'⟩ := Spaced.next h hD
    rw [e]
    exact h'.pairNext hc hn hD' hx hne

theorem Spaced.lastNext {W : Prop} : ∀ {pre : List TokL} {pw : Option Token} {q : Nat} {x : Char} {R D : Str} {p : TokL},
    Spaced W c pw q x (pre ++ [p]) R → Regular c → Narrow c → q = D.length → lastOr ' ' (spell p.tok) ≠ '\n' →
    spell p.tok ≠ [] → Next c ((D ++ R).drop p.r)
  | [], pw, q, x, R, D, p, h, hc, hn, hD, hx, hne => by
    have hpr : p.r ≠ 0 := by
      cases h with
      | tok _ _ _ _ hp _ =>
        have := List.length_pos_iff.mpr hne
        omega
    obtain ⟨D', R', e, hD', h'⟩ := h.next hD
    rw [e, hD', List.drop_append_of_le_length (Nat.le_refl _), List.drop_length, List.nil_append]
    cases h' with
    | done _ he _ _ => exact he hpr hc hn hx
  | a :: pre, pw, q, x, R, D, p, h, hc, hn, hD, hx, hne => by
    obtain ⟨D', R', e, hD', h'⟩ := Spaced.next h hD
    rw [e]
    exact h'.lastNext hc hn hD' hx hne

theorem Lined.behind {D S K : Str} (h : Lined c [lastOr ' ' S] K) : Lined c (D ++ S) K :=
  (Lined.drop (y := ' ') (by decide) h.after).prefix D

/-- The comments between the tokens. -/
theorem Spaced.lined {W : Prop} {pw : Option Token} {q : Nat} {x : Char} {os : List TokL} {R : Str} (h : Spaced W c pw q x os R)
    (hc : CommentLines c) : ∀ {D : Str} {pre post : List TokL} {t e : TokL}, q = D.length →
    (∀ K, Lined c [x] K → Lined c D K) → os ++ [e] = pre ++ t :: post → e.l = (D ++ R).length →
    Lined c ((D ++ R).take ((pre.getLast?.map (·.r)).getD q))
      (((D ++ R).drop ((pre.getLast?.map (·.r)).getD q)).take (t.l - (pre.getLast?.map (·.r)).getD q)) := by
  induction h with
  | @done pw q x K _ _ hl _ =>
    intro D pre post t e hD hx he hl'
    cases pre with
    | nil =>
      obtain ⟨rfl, _⟩ : e = t ∧ [] = post := by simpa using he
      simp only [List.getLast?_nil, Option.map_none, Option.getD_none]
      have := slice_at (K := K) (E := []) (b := e.l) hD (by rw [hl', hD, List.length_append])
      rw [List.append_nil] at this
      rw [this, hD, List.take_left']
      · exact hx _ (hl hc)
      · rfl
    | cons p pre => simp at he
  | @tok pw q x t' os K R _ _ hl _ hp _ ih =>
    intro D pre post t e hD hx he hl'
    cases pre with
    | nil =>
      rw [List.cons_append, List.nil_append, List.cons.injEq] at he
      obtain ⟨rfl, _⟩ := he
      simp only [List.getLast?_nil, Option.map_none, Option.getD_none]
      rw [slice_at hD hp.1, hD, List.take_left']
      · exact hx _ (hl hc)
      · rfl
    | cons p pre =>
      rw [List.cons_append, List.cons_append, List.cons.injEq] at he
      obtain ⟨rfl, he⟩ := he
      have e1 : D ++ (K ++ (spell t'.tok ++ R)) = (D ++ K ++ spell t'.tok) ++ R := by simp
      have := ih (D := D ++ K ++ spell t'.tok) (by rw [hp.2, hp.1, hD]; simp only [List.length_append])
        (fun K h => h.behind) he (by rw [← e1]; exact hl')
      rw [← e1] at this
      have e2 : ((t' :: pre).getLast?.map (·.r)).getD q = (pre.getLast?.map (·.r)).getD t'.r := by
        rw [List.getLast?_cons]
        cases pre.getLast? <;> rfl
      rw [e2]
      exact this

/-- What follows the last comment of a text between tokens, on its line. -/
theorem Spaced.behind {W : Prop} {pw : Option Token} {q : Nat} {x : Char} {os : List TokL} {R : Str} (h : Spaced W c pw q x os R)
    (hW : ¬ W) (hc : Regular c) : ∀ {D : Str} {pre post : List TokL} {t e : TokL}, q = D.length → os ++ [e] = pre ++ t :: post →
    e.tok = .eof → e.l = (D ++ R).length → After c (spell t.tok)
      (((D ++ R).drop ((pre.getLast?.map (·.r)).getD q)).take (t.l - (pre.getLast?.map (·.r)).getD q)) := by
  induction h with
  | @done pw q x K _ _ _ hl =>
    intro D pre post t e hD he ht hl'
    cases pre with
    | nil =>
      obtain ⟨rfl, _⟩ : e = t ∧ [] = post := by simpa using he
      simp only [List.getLast?_nil, Option.map_none, Option.getD_none]
      have := slice_at (K := K) (E := []) (b := e.l) hD (by rw [hl', hD, List.length_append])
      rw [List.append_nil] at this
      rw [this, ht]
      exact hl hW hc
    | cons p pre => simp at he
  | @tok pw q x t' os K R _ _ _ hl hp _ ih =>
    intro D pre post t e hD he ht hl'
    cases pre with
    | nil =>
      rw [List.cons_append, List.nil_append, List.cons.injEq] at he
      obtain ⟨rfl, _⟩ := he
      simp only [List.getLast?_nil, Option.map_none, Option.getD_none]
      rw [slice_at hD hp.1]
      exact hl hW hc
    | cons p pre =>
      rw [List.cons_append, List.cons_append, List.cons.injEq] at he
      obtain ⟨rfl, he⟩ := he
      have e1 : D ++ (K ++ (spell t'.tok ++ R)) = (D ++ K ++ spell t'.tok) ++ R := by simp
      have := ih (D := D ++ K ++ spell t'.tok) (by rw [hp.2, hp.1, hD]; simp only [List.length_append])
        he ht (by rw [← e1]; exact hl')
      rw [← e1] at this
      have e2 : ((t' :: pre).getLast?.map (·.r)).getD q = (pre.getLast?.map (·.r)).getD t'.r := by
        rw [List.getLast?_cons]
        cases pre.getLast? <;> rfl
      rw [e2]
      exact this

/-- The text up to the end of a token ends with it. -/
theorem Spaced.upto {W : Prop} {os : List TokL} : ∀ {pre : List TokL} {pw : Option Token} {q : Nat} {x : Char} {R D : Str} {p : TokL},
    Spaced W c pw q x (pre ++ p :: os) R → q = D.length → ∃ u, (D ++ R).take p.r = u ++ spell p.tok
  | [], pw, q, x, R, D, p, h, hD => by
    cases h with
    | @tok _ _ _ _ _ K R hs _ _ _ hp h =>
      refine ⟨D ++ K, ?_⟩
      have e1 : D ++ (K ++ (spell p.tok ++ R)) = (D ++ K ++ spell p.tok) ++ R := by simp
      rw [e1, hp.2, hp.1, hD, List.take_left']
      simp [Nat.add_assoc]
  | a :: pre, pw, q, x, R, D, p, h, hD => by
    obtain ⟨D', R', e, hD', h'⟩ := Spaced.next h hD
    rw [e]
    exact Spaced.upto h' hD'

theorem last_newline {K : Str} (h : '\n' ∈ K) : ∃ a b, K = a ++ '\n' :: b ∧ '\n' ∉ b := by
  induction K with
  | nil => cases h
  | cons x K ih =>
    by_cases hK : '\n' ∈ K
    · obtain ⟨a, b, rfl, hb⟩ := ih hK
      exact ⟨x :: a, b, rfl, hb⟩
    · rcases List.mem_cons.mp h with rfl | h
      · exact ⟨[], K, rfl, hK⟩
      · exact absurd h hK

/-- A token begins behind the one before it. -/
theorem Spaced.le {W : Prop} {pw : Option Token} {q : Nat} {x : Char} {os : List TokL} {R : Str} (h : Spaced W c pw q x os R) :
    ∀ {n : Nat} {pre post : List TokL} {t e : TokL}, os ++ [e] = pre ++ t :: post → e.l = n + R.length → q = n →
    (pre.getLast?.map (·.r)).getD q ≤ t.l := by
  induction h with
  | @done pw q x K _ _ _ hl =>
    intro n pre post t e he hl' hq
    cases pre with
    | nil =>
      obtain ⟨rfl, _⟩ : e = t ∧ [] = post := by simpa using he
      simp only [List.getLast?_nil, Option.map_none, Option.getD_none]
      omega
    | cons p pre => simp at he
  | @tok pw q x t' os K R _ _ _ hl hp _ ih =>
    intro n pre post t e he hl' hq
    cases pre with
    | nil =>
      rw [List.cons_append, List.nil_append, List.cons.injEq] at he
      obtain ⟨rfl, _⟩ := he
      simp only [List.getLast?_nil, Option.map_none, Option.getD_none]
      omega
    | cons p pre =>
      rw [List.cons_append, List.cons_append, List.cons.injEq] at he
      obtain ⟨rfl, he⟩ := he
      have := ih (n := t'.r) he (by simp only [List.length_append] at hl'; omega) rfl
      have e2 : ((t' :: pre).getLast?.map (·.r)).getD q = (pre.getLast?.map (·.r)).getD t'.r := by
        rw [List.getLast?_cons]
        cases pre.getLast? <;> rfl
      rw [e2]
      exact this

/-- Only the brace is written as a brace. -/
theorem reads_curly {t u : Token} {n : Option Char} (h : Reads t n) (hu : u = .openCurly ∨ u = .closeCurly)
    (e : spell t = spell u) : t = u := by
  have hn : n = n.toList.head? := by cases n <;> rfl
  rw [hn] at h
  have h1 := lexStep_ok 0 t _ h
  have h2 := lexStep_ok 0 u n.toList (by rcases hu with rfl | rfl <;> exact .inr ⟨trivial, fun _ _ => rfl⟩)
  rw [e, h2] at h1
  injection h1 with _ h1
  exact h1.symm

theorem curly_of {t : Token} (ht : t = .eof ∨ ∃ n, Reads t n) (h : spell t = ['{'] ∨ spell t = ['}']) :
    t = .openCurly ∨ t = .closeCurly := by
  rcases ht with rfl | ⟨n, ht⟩
  · rcases h with h | h <;> cases h
  · exact h.imp (fun h => reads_curly (u := .openCurly) ht (.inl rfl) h) (fun h => reads_curly (u := .closeCurly) ht (.inr rfl) h)

theorem After.long {t : Token} {K : Str} (h : After c (spell t) K) (ht : t = .eof ∨ ∃ n, Reads t n) : AfterLong c t K := by
  intro a b e hb hn
  rcases h.1 a b e hb hn with h | ⟨h, h'⟩
  · exact .inl h
  · exact .inr ⟨curly_of ht h, h'⟩

theorem After.start {t : Token} {K : Str} (h : After c (spell t) K) (hL : LineHints c) (ht : t = .eof ∨ ∃ n, Reads t n) :
    Indented c t K := by
  intro a b e hb hn
  obtain ⟨k, h⟩ := h.2 hL a b e hb hn
  exact ⟨k, h.imp id fun ⟨h, h'⟩ => ⟨curly_of ht h, h'⟩⟩

theorem SpaceOk.between {p t : Token} {K : Str} (hs : isSheBang p = false) (h : SpaceOk c (some p) t K) : Between c p t K := by
  obtain ⟨b, h1, h2⟩ := h
  refine ⟨b, ?_, h2⟩
  simp only [SpaceIn, spaceB, hs, Bool.false_eq_true, if_false] at h1
  split at h1
  · next h =>
    rw [if_pos h]
    exact eq_of_beq h1
  · next h =>
    rw [if_neg h]
    revert h1
    cases spacing p t with
    | none =>
      intro h1
      rcases Bool.or_eq_true_iff.mp h1 with h1 | h1
      · exact .inl (eq_of_beq h1)
      · exact .inr (eq_of_beq h1)
    | some w =>
      intro h1
      exact eq_of_beq h1

/-- A program does not begin with `{`. -/
theorem first_not_curly {src : Str} {tree : Node} (h : parseLua src = some tree) {t : TokL} {ts : List TokL}
    (hl : lexLua src = some (t :: ts)) : t.tok ≠ .openCurly := by
  unfold parseLua at h
  simp only [Option.bind_eq_bind, Option.bind_eq_some_iff, Option.some.injEq, Prod.exists] at h
  obtain ⟨toks', hlex', sb, b, hc, rfl⟩ := h
  rw [hl] at hlex'
  cases hlex'
  obtain ⟨h1, h2, h3⟩ := parseChunk_sound hc
  intro ht
  cases sb with
  | some s =>
    obtain ⟨w, rfl⟩ := h1 s rfl
    simp [Cst.yields, Cst.yield, ht] at h3
  | none =>
    cases b with
    | none => simp [Cst.yields, ht] at h3
    | some x =>
      obtain ⟨u, us, e1, e2⟩ := derives_first (h2 x rfl)
      simp [Cst.yields, e1, ht] at h3
      rw [← h3.1] at e2
      revert e2
      decide +kernel

/-- The output of a formatting run with its tokens and the blanks between them. -/
theorem format_spaced (hh : BlankHints c) {src out : Str} {toks : List Token} (hl : c.lineRange = none) (hf : format c src = .ok out)
    (ht : toksOf src = some (toks ++ [.eof])) (hk : KeepsApart c toks) :
    ∃ tree' os, parseLua out = some tree' ∧ lexLua out = some (os ++ [⟨out.length, .eof, out.length⟩]) ∧
      (∀ t ∈ os, ∃ n, Reads t.tok n) ∧ Spaced False c none 0 ' ' os out := by
  obtain ⟨tree, ms, hp, hE, _⟩ := format_marks hl hf
  obtain ⟨ts, e, os, es, es', h1, h2, hO, _, h3, _, h5, _, h7, h8⟩ := tree_elems hh (.inl ⟨rfl, hl⟩) hp hE
  have : toks = tokensOf es := by
    rw [toksOf, h1] at ht
    simp [h2, h3] at ht
    exact ht.symm
  subst this
  obtain ⟨tree', h9, _⟩ := outs_pair hp h1 h2 hO (h7 hk).lex rfl
  refine ⟨tree', os, h9, ?_, (h7 hk).reads, h8⟩
  have := (h7 hk).lex
  rw [Nat.zero_add] at this
  exact this

end Luafmt
