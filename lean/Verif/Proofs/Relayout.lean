import Verif.Proofs.Index
import Verif.Proofs.OutElems

/-
Sources with the same tokens and comments are formatted alike, where gaps are written from scratch.
-/
namespace Luafmt
open Spec

variable {c : Config}

/-! ### The comments of a gap -/

theorem clexGo_text {es : List Elem} {g : Str} (h : Text es g) : Comments es → ∀ (i fuel : Nat), g.length < fuel →
    ∃ ts, clexGo fuel ⟨i, g⟩ = some ts ∧ celems ts = es := by
  induction h with
  | nil =>
    intro _ i fuel hf
    obtain ⟨f, rfl⟩ : ∃ f, fuel = f + 1 := ⟨fuel - 1, by omega⟩
    exact ⟨[], by simp [clexGo, clexStep], rfl⟩
  | @blank es ch s hb _ ih =>
    intro hc i fuel hf
    obtain ⟨f, rfl⟩ : ∃ f, fuel = f + 1 := ⟨fuel - 1, by omega⟩
    obtain ⟨ts, h1, h2⟩ := ih hc (i + 1) f (by simp at hf; omega)
    by_cases hn : ch = '\n'
    · subst hn
      refine ⟨⟨i, .newLine, i + 1⟩ :: ts, ?_, ?_⟩
      · have : clexStep ⟨i, '\n' :: s⟩ = .tok i .newLine (i + 1) ⟨i + 1, s⟩ := by simp [clexStep, Chars.advance]
        simp only [clexGo, this, h1, Option.map_some]
      · exact h2
    · have hsp : ch = ' ' ∨ ch = '\r' ∨ ch = '\t' := by
        rcases hb with h | h | h | h
        · exact .inl h
        · exact absurd h hn
        · exact .inr (.inl h)
        · exact .inr (.inr h)
      refine ⟨ts, ?_, h2⟩
      have : clexStep ⟨i, ch :: s⟩ = .skip ⟨i + 1, s⟩ := by
        simp only [clexStep, Chars.advance]
        rw [if_pos hsp]
      simp only [clexGo, this, h1]
  | @elem e es s he _ ih =>
    intro hc i fuel hf
    obtain ⟨f, rfl⟩ : ∃ f, fuel = f + 1 := ⟨fuel - 1, by omega⟩
    have ih := ih (fun x hx => hc x (by simp [hx]))
    have h1 := hc e (by simp)
    cases e with
    | tok => cases h1
    | line t =>
      obtain ⟨ts, h1, h2⟩ := ih (i + 2 + t.length + 1) f (by simp [Elem.text] at hf; omega)
      refine ⟨⟨i, .oneLine t, i + (t.length + 3)⟩ :: ts, ?_, ?_⟩
      · have hends := getCommentEnds_line (i + 2) t s he
        have : clexStep ⟨i, Elem.text (.line t) ++ s⟩ = .tok i (.oneLine t) (i + (t.length + 3)) ⟨i + 2 + t.length + 1, s⟩ := by
          simp [Elem.text, clexStep, Chars.advance, hends]
          omega
        simp only [clexGo, this, h1, Option.map_some]
      · show celem (.oneLine t) ++ celems ts = _
        rw [h2]
        rfl
    | long n t =>
      obtain ⟨ts, h1, h2⟩ := ih (i + 2 + n + 2 + t.length + n + 2) f (by simp [Elem.text, opener, closer] at hf; omega)
      refine ⟨⟨i, .multiLine n t, i + (2 + n + 2 + t.length + n + 2)⟩ :: ts, ?_, ?_⟩
      · have hends := getCommentEnds_long (i + 2) n t s he
        have : clexStep ⟨i, Elem.text (.long n t) ++ s⟩ =
            .tok i (.multiLine n t) (i + (2 + n + 2 + t.length + n + 2)) ⟨i + 2 + n + 2 + t.length + n + 2, s⟩ := by
          rw [show Elem.text (.long n t) ++ s = '-' :: '-' :: (opener n ++ (t ++ (closer n ++ s))) by simp [Elem.text]]
          simp only [clexStep, Chars.advance, List.head?_cons, if_true, hends]
          rw [if_neg (by decide), if_neg (by decide)]
          simp
          omega
        simp only [clexGo, this, h1, Option.map_some]
      · show celem (.multiLine n t) ++ celems ts = _
        rw [h2]
        rfl

/-- A text has only one sequence of comments. -/
theorem text_unique {es es' : List Elem} {g : Str} (h : Text es g) (h' : Text es' g) (hc : Comments es) (hc' : Comments es') :
    es' = es := by
  obtain ⟨ts, h1, rfl⟩ := clexGo_text h hc 0 (g.length + 1) (Nat.lt_succ_self _)
  obtain ⟨ts', h2, rfl⟩ := clexGo_text h' hc' 0 (g.length + 1) (Nat.lt_succ_self _)
  rw [h1] at h2
  cases h2
  rfl

theorem gapElems_eq {es : List Elem} {g : Str} (h : Text es g) (hc : Comments es) : gapElems g = es :=
  text_unique h (gapElems_gap (gap_of_text h hc)).1 hc (gapElems_gap (gap_of_text h hc)).2

theorem gapElems_last {es : List Elem} {g : Str} (hg : FinalGap g) (hl : Clean g) (h : Text es (g ++ ['\n'])) (hc : Comments es) :
    gapElems g = es :=
  text_unique h ((gapElems_final hg).1 hl) hc (gapElems_final hg).2

/-! ### The gaps of a source -/

/-- The comments in front of the token with this number. -/
def cut : List Elem → Nat → List Elem
  | [], _ => []
  | .tok _ :: _, 0 => []
  | .tok _ :: es, n + 1 => cut es n
  | e :: es, 0 => e :: cut es 0
  | _ :: es, n + 1 => cut es (n + 1)

theorem cut_zero : ∀ {cs : List Elem} (es : List Elem), Comments cs → cut (cs ++ es) 0 = cs ++ cut es 0
  | [], es, _ => rfl
  | e :: cs, es, h => by
    have h1 := h e (by simp)
    have h2 := cut_zero (cs := cs) es (fun x hx => h x (by simp [hx]))
    cases e with
    | tok t => cases h1
    | line s => simp [cut, h2]
    | long n s => simp [cut, h2]

theorem cut_succ : ∀ {cs : List Elem} (es : List Elem) (n : Nat), Comments cs → cut (cs ++ es) (n + 1) = cut es (n + 1)
  | [], es, _, _ => rfl
  | e :: cs, es, n, h => by
    have h1 := h e (by simp)
    have h2 := cut_succ (cs := cs) es n (fun x hx => h x (by simp [hx]))
    cases e with
    | tok t => cases h1
    | line s => simp [cut, h2]
    | long n s => simp [cut, h2]

theorem text_init {s : Str} (h : Text [] (s ++ ['\n'])) : Text [] s := by
  induction s with
  | nil => exact .nil
  | cons ch s ih =>
    cases h with
    | blank hb h => exact .blank hb (ih h)

theorem reading_gap : ∀ {ts : List TokL} {es : List Elem} {s : Str} {p : Nat}, Tiles s p ts → Reading es s p ts →
    Clean s ∨ commentsOf es = [] → ∀ j, j < ts.length → ∃ a g b, s = a ++ (g ++ b) ∧ posAt p ts (2 * j) = p + a.length ∧
      posAt p ts (2 * j + 1) = p + a.length + g.length ∧ FinalGap g ∧ gapElems g = cut es j
  | [], _, _, _, h, _, _ => h.elim
  | t :: ts, es, s, p, hT, hR, hC => by
    intro j hj
    rcases hR with ⟨h1, rfl, h3, h4, h5⟩ | ⟨cs, g, u, s', es', h1, rfl, rfl, h4, h5, h6, h7, h8⟩
    · rcases hT with ⟨_, _, k3, k4, _⟩ | ⟨_, _, _, k1, _⟩
      · obtain rfl : j = 0 := by simp at hj; omega
        refine ⟨[], s, [], by simp, by simp [posAt], by simp [posAt, h5], k3, ?_⟩
        have hl : gapElems s = es := by
          rcases hC with hC | hC
          · exact gapElems_last k3 hC h4 h3
          · obtain rfl : es = [] := by
              have : commentsOf es = es := List.filter_eq_self.mpr h3
              rw [← this, hC]
            exact gapElems_eq (text_init h4) h3
        rw [hl]
        have := cut_zero (cs := es) [] h3
        simpa [cut] using this.symm
      · exact absurd h1 k1
    · rcases hT with ⟨k1, _⟩ | ⟨g', u', s'', _, k2, k3, k4, k5, _, _, k8⟩
      · exact absurd k1 h1
      · have hg : g.length = g'.length := by omega
        have hu : u.length = u'.length := by omega
        obtain ⟨rfl, k2'⟩ := List.append_inj k2 hg
        obtain ⟨rfl, rfl⟩ := List.append_inj k2' hu
        cases j with
        | zero =>
          refine ⟨[], g, u ++ s', rfl, by simp [posAt], by simp [posAt, h6], .inl k3, ?_⟩
          rw [gapElems_eq h5 h4, cut_zero _ h4]
          simp [cut]
        | succ j =>
          obtain ⟨a, g1, b, e1, e2, e3, e4, e5⟩ := reading_gap k8 h8 (hC.imp (·.suffix ((List.suffix_append _ _).trans (List.suffix_append _ _))) (fun h => by
              unfold commentsOf at h ⊢
              rw [List.filter_append, List.append_eq_nil_iff] at h
              exact h.2)) j (by simp at hj; omega)
          subst e1
          refine ⟨g ++ (u ++ a), g1, b, by simp, ?_, ?_, e4, ?_⟩
          · rw [show 2 * (j + 1) = 2 * j + 2 by omega]
            simp only [posAt, e2]
            simp
            omega
          · rw [show 2 * (j + 1) + 1 = 2 * j + 1 + 2 by omega]
            simp only [posAt, e3]
            simp
            omega
          · rw [e5, cut_succ _ _ h4]
            rfl

/-- The comments in a gap of the tree of numbers. -/
def cutLoc (es : List Elem) (l : Loc) : List Elem := if l.r = l.l then [] else cut es (l.l / 2)

theorem lexLua_tiles {src : Str} {toks : List TokL} (h : lexLua src = some toks) : Tiles src 0 toks :=
  tilesR_tiles (lexFrom_tilesR 0 src toks h)

/-- The gaps of a text in which all comments are complete. -/
theorem Read.gap {q : Nat} {es : List Elem} {os : List TokL} {s : Str} (h : Read q es os s) : ∀ j, j < os.length + 1 →
    ∃ a g b, s = a ++ (g ++ b) ∧ posAt q (os ++ [⟨q + s.length, .eof, q + s.length⟩]) (2 * j) = q + a.length ∧
      posAt q (os ++ [⟨q + s.length, .eof, q + s.length⟩]) (2 * j + 1) = q + a.length + g.length ∧ FinalGap g ∧ gapElems g = cut es j := by
  induction h with
  | @final q es s ht hc =>
    intro j hj
    obtain rfl : j = 0 := by simp at hj; omega
    refine ⟨[], s, [], by simp, by simp [posAt], by simp [posAt], .inl (gap_of_text ht hc), ?_⟩
    rw [gapElems_eq ht hc]
    have := cut_zero (cs := es) [] hc
    simpa [cut] using this.symm
  | @tok q es fs os g s t ht hc hr hp _ ih =>
    intro j hj
    cases j with
    | zero =>
      refine ⟨[], g, spell t.tok ++ s, rfl, by simp [posAt], by simp [posAt, hp.1], .inl (gap_of_text ht hc), ?_⟩
      rw [gapElems_eq ht hc, cut_zero _ hc]
      simp [cut]
    | succ j =>
      obtain ⟨a, g1, b, e1, e2, e3, e4, e5⟩ := ih j (by simp at hj; omega)
      have hl : q + (g ++ (spell t.tok ++ s)).length = t.r + s.length := by
        simp only [List.length_append]
        omega
      refine ⟨g ++ (spell t.tok ++ a), g1, b, by rw [e1]; simp, ?_, ?_, e4, ?_⟩
      · rw [show 2 * (j + 1) = 2 * j + 2 by omega, hl]
        simp only [List.cons_append, posAt, e2, List.length_append]
        omega
      · rw [show 2 * (j + 1) + 1 = 2 * j + 1 + 2 by omega, hl]
        simp only [List.cons_append, posAt, e3, List.length_append]
        omega
      · rw [e5, cut_succ _ _ hc]
        rfl

theorem Parsed.gaps_of {src : Str} {us : List TokL} {e : TokL} {sb b : Option C} {es : List Elem} (h : Parsed src us e sb b)
    (hR : ∀ j, j < (us ++ [e]).length → ∃ a g b, src = a ++ (g ++ b) ∧ posAt 0 (us ++ [e]) (2 * j) = 0 + a.length ∧
      posAt 0 (us ++ [e]) (2 * j + 1) = 0 + a.length + g.length ∧ FinalGap g ∧ gapElems g = cut es j) : ∀ l ∈ (idxTree (us.map (·.tok)) sb b).allLocs,
      GapHas ⟨src, none⟩ (cutLoc es l) (l.move (posAt 0 (us ++ [e]))) := by
  intro l hl
  have hp : parseLua src = some (placeChunk src.length (us ++ [e]) sb b) := by
    unfold parseLua
    rw [h.lex, Option.bind_eq_bind, Option.bind_some, h.chunk]
    rfl
  have hG : GapAt ⟨src, none⟩ (l.move (posAt 0 (us ++ [e]))) := by
    refine (parseLua_live hp none).gaps _ _ ?_
    rw [h.tree, allLocs_move]
    exact List.mem_map_of_mem hl
  obtain ⟨h1, h2⟩ := h.idx l hl
  unfold cutLoc
  split
  · next hr =>
    obtain ⟨a, g, d, e1, e2, e3⟩ := hG
    have hg : g = [] := by
      simp only [Loc.move, hr, Loc.mk.injEq] at e2
      exact List.length_eq_zero_iff.mp (by omega)
    subst hg
    exact ⟨a, [], d, e1, e2, e3, gapElems_eq .nil (fun _ h => (by cases h))⟩
  · next hr =>
    obtain ⟨k1, k2⟩ := h2.resolve_left hr
    obtain ⟨a, g, d, e1, e2, e3, e4, e5⟩ := hR (l.l / 2) (by simp; omega)
    refine ⟨a, g, d, e1, ?_, e4, e5⟩
    rw [show 2 * (l.l / 2) = l.l by omega, Nat.zero_add] at e2 e3
    rw [← k2] at e3
    simp only [Loc.move, e2, e3]

/-- The gaps of the tree have the comments of the source. -/
theorem Parsed.gaps {src : Str} {us : List TokL} {e : TokL} {sb b : Option C} {es : List Elem} (h : Parsed src us e sb b)
    (hR : Reading es src 0 (us ++ [e])) (hC : Clean src ∨ commentsOf es = []) : ∀ l ∈ (idxTree (us.map (·.tok)) sb b).allLocs,
      GapHas ⟨src, none⟩ (cutLoc es l) (l.move (posAt 0 (us ++ [e]))) :=
  h.gaps_of (reading_gap (lexLua_tiles h.lex) hR hC)

/-- The same for a text in which all comments are complete. -/
theorem Parsed.gaps_read {src : Str} {us os : List TokL} {e : TokL} {sb b : Option C} {es : List Elem} (h : Parsed src us e sb b)
    (hR : Read 0 es os src) : ∀ l ∈ (idxTree (us.map (·.tok)) sb b).allLocs,
      GapHas ⟨src, none⟩ (cutLoc es l) (l.move (posAt 0 (us ++ [e]))) := by
  have hl : lexFrom 0 src = some (us ++ [e]) := h.lex
  rw [hR.lex] at hl
  have hl := Option.some.inj hl
  refine h.gaps_of fun j hj => ?_
  rw [← hl] at hj ⊢
  exact hR.gap j (by simpa using hj)

/-! ### Layout -/

theorem gapHas_here (src : Str) : GapHas ⟨src, none⟩ [] ⟨0, 0⟩ :=
  ⟨[], [], src, rfl, rfl, .inl .nil, gapElems_eq .nil (fun _ h => (by cases h))⟩

theorem mem_cut : ∀ {es : List Elem} {n : Nat} {e : Elem}, e ∈ cut es n → e ∈ es ∧ e.isComment = true
  | [], n, e, h => by cases n <;> cases h
  | .tok t :: es, 0, e, h => by cases h
  | .tok t :: es, n + 1, e, h => by
    have := mem_cut (es := es) (n := n) h
    exact ⟨by simp [this.1], this.2⟩
  | .line s :: es, 0, e, h => by
    simp only [cut, List.mem_cons] at h
    rcases h with rfl | h
    · exact ⟨by simp, rfl⟩
    · have := mem_cut h
      exact ⟨by simp [this.1], this.2⟩
  | .long m s :: es, 0, e, h => by
    simp only [cut, List.mem_cons] at h
    rcases h with rfl | h
    · exact ⟨by simp, rfl⟩
    · have := mem_cut h
      exact ⟨by simp [this.1], this.2⟩
  | .line s :: es, n + 1, e, h => by
    have := mem_cut (es := es) (n := n + 1) h
    exact ⟨by simp [this.1], this.2⟩
  | .long m s :: es, n + 1, e, h => by
    have := mem_cut (es := es) (n := n + 1) h
    exact ⟨by simp [this.1], this.2⟩

theorem cutLoc_none {es : List Elem} {l : Loc} (h : commentsOf es = []) : cutLoc es l = [] := by
  unfold cutLoc
  split
  · rfl
  · refine List.eq_nil_iff_forall_not_mem.mpr fun e he => ?_
    obtain ⟨h1, h2⟩ := mem_cut he
    have : e ∈ commentsOf es := List.mem_filter.mpr ⟨h1, h2⟩
    rw [h] at this
    cases this

theorem cut_infix : ∀ (es : List Elem) (n : Nat), ∃ as bs, es = as ++ (cut es n ++ bs) ∧ (n = 0 → as = [])
  | [], n => ⟨[], [], by cases n <;> rfl, fun _ => rfl⟩
  | .tok t :: es, 0 => ⟨[], .tok t :: es, rfl, fun _ => rfl⟩
  | .tok t :: es, n + 1 => by
    obtain ⟨as, bs, h, _⟩ := cut_infix es n
    exact ⟨.tok t :: as, bs, by simp only [cut, List.cons_append, ← h], by simp⟩
  | .line s :: es, 0 => by
    obtain ⟨as, bs, h, h0⟩ := cut_infix es 0
    cases h0 rfl
    exact ⟨[], bs, by simpa only [cut, List.cons_append, List.nil_append, List.cons.injEq, true_and] using h, fun _ => rfl⟩
  | .long m s :: es, 0 => by
    obtain ⟨as, bs, h, h0⟩ := cut_infix es 0
    cases h0 rfl
    exact ⟨[], bs, by simpa only [cut, List.cons_append, List.nil_append, List.cons.injEq, true_and] using h, fun _ => rfl⟩
  | .line s :: es, n + 1 => by
    obtain ⟨as, bs, h, _⟩ := cut_infix es (n + 1)
    exact ⟨.line s :: as, bs, by simp only [cut, List.cons_append, ← h], by simp⟩
  | .long m s :: es, n + 1 => by
    obtain ⟨as, bs, h, _⟩ := cut_infix es (n + 1)
    exact ⟨.long m s :: as, bs, by simp only [cut, List.cons_append, ← h], by simp⟩

theorem cut_lone {es : List Elem} (h : LoneComments es) (n : Nat) : (cut es n).length ≤ 1 := by
  obtain ⟨as, bs, h1, _⟩ := cut_infix es n
  have h2 : ∀ e ∈ cut es n, e.isComment = true := fun e he => (mem_cut he).2
  generalize cut es n = ds at h1 h2
  match ds, h1, h2 with
  | [], _, _ => exact Nat.zero_le _
  | [_], _, _ => exact Nat.le_refl _
  | e :: e' :: ds, h1, h2 => exact absurd ⟨h2 e (by simp), h2 e' (by simp)⟩ (h as (ds ++ bs) e e' (by simpa using h1))

theorem Spec.CommentsFit.gap {es : List Elem} (h : CommentsFit c es) (l : Loc) : GapFit c (cutLoc es l) := by
  rcases h with h | ⟨h1, h2⟩
  · exact .inl (cutLoc_none h)
  · refine .inr ⟨h1, h2.imp id fun h => ?_⟩
    unfold cutLoc
    split
    · exact Nat.zero_le _
    · exact cut_lone h _

theorem reading_tokens : ∀ {ts : List TokL} {es : List Elem} {s : Str} {p : Nat}, Reading es s p ts →
    ts.map (·.tok) = tokensOf es ++ [.eof]
  | [], _, _, _, h => h.elim
  | t :: ts, es, s, p, h => by
    rcases h with ⟨h1, rfl, h3, _⟩ | ⟨cs, g, u, s', es', h1, rfl, rfl, h4, _, _, _, h8⟩
    · simp [h1, tokensOf_comments h3]
    · rw [tokensOf_append, tokensOf_comments h4]
      simp [tokensOf, reading_tokens h8]

theorem parse_tokens {src src' : Str} {toks toks' : List TokL} (h : lexLua src = some toks) (h' : lexLua src' = some toks')
    (ht : toks'.map (·.tok) = toks.map (·.tok)) (hp : parseLua src = none) : parseLua src' = none := by
  unfold parseLua at hp ⊢
  rw [h, Option.bind_eq_bind, Option.bind_some] at hp
  rw [h', Option.bind_eq_bind, Option.bind_some, ht]
  cases hx : parseChunk (toks.map (·.tok)) with
  | none => rfl
  | some x =>
    rw [hx] at hp
    cases hp

/-- Sources with the same tokens and gaps that are written alike are formatted alike. -/
theorem format_moved (hc : Relaid c) {src src' : Str} (ht : toksOf src' = toksOf src)
    (hz : SameGap c ⟨src, none⟩ ⟨src', none⟩ ⟨0, 0⟩ ⟨0, 0⟩)
    (hG : ∀ us e us' e' sb b, Parsed src us e sb b → Parsed src' us' e' sb b → us'.map (·.tok) = us.map (·.tok) →
      ∀ l ∈ (idxTree (us.map (·.tok)) sb b).allLocs,
        SameGap c ⟨src, none⟩ ⟨src', none⟩ (l.move (posAt 0 (us ++ [e]))) (l.move (posAt 0 (us' ++ [e'])))) :
    format c src' = format c src := by
  cases hl : lexLua src with
  | none =>
    have hl' : lexLua src' = none := by
      unfold toksOf at ht
      rw [hl] at ht
      simpa using ht
    simp [format, parseLua, hl, hl']
  | some toks =>
    obtain ⟨toks', hl', htt⟩ : ∃ toks', lexLua src' = some toks' ∧ toks'.map (·.tok) = toks.map (·.tok) := by
      unfold toksOf at ht
      rw [hl] at ht
      simpa using ht
    cases hp : parseLua src with
    | none =>
      simp [format, hp, parse_tokens hl hl' htt hp]
    | some tree =>
      cases hp' : parseLua src' with
      | none =>
        have := parse_tokens hl' hl htt.symm hp'
        rw [hp] at this
        cases this
      | some tree' =>
        obtain ⟨us, e, sb, b, P, rfl⟩ := parsed_of hp
        obtain ⟨us', e', sb', b', P', rfl⟩ := parsed_of hp'
        have hus : us'.map (·.tok) = us.map (·.tok) := by
          have h1 := P.lex
          have h2 := P'.lex
          rw [hl] at h1
          rw [hl'] at h2
          cases h1
          cases h2
          simpa [P.eof, P'.eof] using htt
        obtain ⟨rfl, rfl⟩ := P.same P' hus
        refine format_twin hc.tests hc.range hp hp' hz ?_
        rw [P.tree, P'.tree, hus]
        exact move_twin _ (hG us e us' e' _ _ P P' hus)

mutual
/-- The gaps of trees with the same nodes. -/
theorem Twin.locs {G : Loc → Loc → Prop} {P P' : Loc → Prop} : ∀ {n n' : Node}, Twin c G n n' → (∀ l ∈ n.allLocs, P l) →
    (∀ l ∈ n'.allLocs, P' l) → Twin c (fun l l' => P l ∧ P' l') n n'
  | _, _, .mk ht hl hk, h, h' => .mk ht
      (pairs_both hl (fun l hl => h l (List.mem_append_left _ hl)) (fun l hl => h' l (List.mem_append_left _ hl)))
      (Twins.locs hk (fun l hl => h l (List.mem_append_right _ hl)) (fun l hl => h' l (List.mem_append_right _ hl)))
theorem Twins.locs {G : Loc → Loc → Prop} {P P' : Loc → Prop} : ∀ {ns ns' : List Node}, Twins c G ns ns' →
    (∀ l ∈ Node.allLocsAll ns, P l) → (∀ l ∈ Node.allLocsAll ns', P' l) → Twins c (fun l l' => P l ∧ P' l') ns ns'
  | _, _, .nil, _, _ => .nil
  | _, _, .cons h hs, h1, h2 => .cons
      (h.locs (fun l hl => h1 l (List.mem_append_left _ hl)) (fun l hl => h2 l (List.mem_append_left _ hl)))
      (hs.locs (fun l hl => h1 l (List.mem_append_right _ hl)) (fun l hl => h2 l (List.mem_append_right _ hl)))
theorem pairs_both {G : Loc → Loc → Prop} {P P' : Loc → Prop} : ∀ {ls ls' : List Loc}, Pairs G ls ls' → (∀ l ∈ ls, P l) →
    (∀ l ∈ ls', P' l) → Pairs (fun l l' => P l ∧ P' l') ls ls'
  | _, _, .nil, _, _ => .nil
  | _, _, .cons _ h, h1, h2 => .cons ⟨h1 _ (by simp), h2 _ (by simp)⟩
      (pairs_both h (fun l hl => h1 l (by simp [hl])) (fun l hl => h2 l (by simp [hl])))
end

mutual
theorem Twin.mono {G H : Loc → Loc → Prop} (hGH : ∀ l l', G l l' → H l l') : ∀ {n n' : Node}, Twin c G n n' → Twin c H n n'
  | _, _, .mk ht hl hk => .mk ht (pairs_mono (c := c) hGH hl) (Twins.mono hGH hk)
theorem Twins.mono {G H : Loc → Loc → Prop} (hGH : ∀ l l', G l l' → H l l') : ∀ {ns ns' : List Node}, Twins c G ns ns' → Twins c H ns ns'
  | _, _, .nil => .nil
  | _, _, .cons h hs => .cons (h.mono hGH) (hs.mono hGH)
end

end Luafmt
