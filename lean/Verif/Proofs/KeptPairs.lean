import Verif.Proofs.Spaced

/-
The line breaks of the source and of the output, by position.
-/
namespace Luafmt
open Spec

variable {c : Config}

theorem tilesR_eof : ∀ {ts : List TokL} {s : Str} {a : Nat}, TilesR s a ts → ∀ t ∈ ts, t.tok = .eof → t.l = a + s.length
  | [], _, _, h => h.elim
  | t :: ts, s, a, h => by
    rcases h with ⟨_, rfl, _, h, _⟩ | ⟨g, u, s', h0, rfl, _, h1, h2, _, _, h3⟩
    · intro t' ht _
      simp only [List.mem_cons, List.not_mem_nil, or_false] at ht
      subst ht
      exact h
    · intro t' ht he
      rcases List.mem_cons.mp ht with rfl | ht
      · exact absurd he h0
      · have := tilesR_eof h3 t' ht he
        simp only [List.length_append]
        omega

theorem Render.length (hc : KeepsLines c) {NL : Prop} {N q : Nat} {T : Bool} {pv : Option Token} {x : Char} {sg s R : Str}
    {esG : List Elem} {ts os : List TokL} (h : Render c NL N q T pv x sg esG ts os s R) : ts.length = os.length + 1 := by
  induction h with
  | done => rfl
  | tok _ _ _ _ _ _ _ _ _ _ _ ih => simp [ih]
  | drop _ _ _ _ _ ho =>
    rcases ho with ho | ho
    · rw [hc.trailing] at ho; cases ho
    · exact absurd ho hc.table
  | add _ _ _ ho =>
    rw [hc.trailing] at ho; cases ho

theorem Render.kept (hc : KeepsLines c) {NL : Prop} {N q : Nat} {T : Bool} {pv : Option Token} {x : Char} {sg s R : Str}
    {esG : List Elem} {ts os : List TokL} (h : Render c NL N q T pv x sg esG ts os s R) :
    ∀ {DS DO : Str} {pre pre' post post' : List TokL} {t t' e : TokL}, sg = [] → DS.length + s.length = N → q = DO.length →
    ts = pre ++ t :: post → os ++ [e] = pre' ++ t' :: post' → pre.length = pre'.length → e.l = (DO ++ R).length →
    (∀ z ∈ ts, z.tok = .eof → z.l = N) → (x = '{' → lastOr ' ' DO = '{') →
    KeptNl c (lastOr ' ' ((DO ++ R).take ((pre'.getLast?.map (·.r)).getD q)) = '{' ∧ spell t.tok = ['}']) (((DS ++ s).drop ((pre.getLast?.map (·.r)).getD DS.length)).take (t.l - (pre.getLast?.map (·.r)).getD DS.length))
      (((DO ++ R).drop ((pre'.getLast?.map (·.r)).getD q)).take (t'.l - (pre'.getLast?.map (·.r)).getD q)) := by
  have hcons : ∀ (a : TokL) (pre : List TokL) (q : Nat),
      ((a :: pre).getLast?.map (·.r)).getD q = (pre.getLast?.map (·.r)).getD a.r := by
    intro a pre q
    rw [List.getLast?_cons]
    cases pre.getLast? <;> rfl
  induction h with
  | @done q T pv x sg s K esG es es' e0 he _ _ _ _ hk =>
    intro DS DO pre pre' post post' t t' e hsg hN hD h1 h2 hl hel heof hx
    cases pre with
    | cons _ _ => simp at h1
    | nil =>
      cases pre' with
      | cons _ _ => simp at hl
      | nil =>
        obtain ⟨rfl, _⟩ : e0 = t ∧ [] = post := by simpa using h1
        obtain ⟨rfl, _⟩ : e = t' ∧ [] = post' := by simpa using h2
        subst hsg
        simp only [List.getLast?_nil, Option.map_none, Option.getD_none]
        have k1 := slice_at (D := DS) (K := s) (E := []) (a := DS.length) (b := e0.l) rfl (by rw [heof e0 (by simp) he, hN])
        have k2 := slice_at (D := DO) (K := K) (E := []) (b := e.l) hD (by rw [hel, hD, List.length_append])
        rw [List.append_nil] at k1 k2
        rw [k1, k2]
        exact hk.mono fun h => h.elim
  | @tok q T pv x sg g u s K R esG es es' t0 ts t0' os _ _ _ _ _ _ _ _ hpos hk hr ih =>
    intro DS DO pre pre' post post' t t' e hsg hN hD h1 h2 hl hel heof hx
    obtain ⟨hk, hk1, hk2⟩ := hk
    subst hsg
    simp only [List.length_append] at hN
    cases pre with
    | nil =>
      cases pre' with
      | cons _ _ => simp at hl
      | nil =>
        rw [List.nil_append, List.cons.injEq] at h1
        rw [List.cons_append, List.nil_append, List.cons.injEq] at h2
        obtain ⟨rfl, _⟩ := h1
        obtain ⟨rfl, _⟩ := h2
        simp only [List.getLast?_nil, Option.map_none, Option.getD_none]
        rw [slice_at rfl (by omega), slice_at hD hpos.1]
        refine hk.mono fun ⟨h1, h2⟩ => ⟨?_, h2⟩
        rw [hD, List.take_left]
        exact hx h1
    | cons a pre =>
      cases pre' with
      | nil => simp at hl
      | cons a' pre' =>
        rw [List.cons_append, List.cons.injEq] at h1
        rw [List.cons_append, List.cons_append, List.cons.injEq] at h2
        obtain ⟨rfl, h1⟩ := h1
        obtain ⟨rfl, h2⟩ := h2
        have e1 : DO ++ (K ++ (spell t0'.tok ++ R)) = (DO ++ K ++ spell t0'.tok) ++ R := by simp
        have e2 : DS ++ (g ++ (u ++ s)) = (DS ++ g ++ u) ++ s := by simp
        have hlast : lastOr ' ' (spell t0'.tok) = '{' → lastOr ' ' (DO ++ K ++ spell t0'.tok) = '{' := by
          intro h
          unfold lastOr at h ⊢
          rw [List.getLast?_append]
          cases hs : (spell t0'.tok).getLast? with
          | none => rw [hs] at h; exact absurd h (by decide)
          | some y => rw [hs] at h; simpa using h
        have := ih (DS := DS ++ g ++ u) (DO := DO ++ K ++ spell t0'.tok) rfl (by simp only [List.length_append]; omega)
          (by rw [hpos.2, hpos.1, hD]; simp only [List.length_append]) h1 h2 (by simpa using hl) (by rw [← e1]; exact hel)
          (fun z hz => heof z (by simp [hz])) hlast
        rw [← e1, ← e2] at this
        rw [hcons, hcons]
        have e3 : t0.r = (DS ++ g ++ u).length := by simp only [List.length_append]; omega
        rw [e3]
        exact this
  | drop _ _ _ _ _ ho =>
    rcases ho with ho | ho
    · rw [hc.trailing] at ho; cases ho
    · exact (hc.table ho).elim
  | add _ _ _ ho =>
    rw [hc.trailing] at ho; cases ho

theorem curly_of_reads {t : Token} {n : Option Char} (h : Reads t n) (hs : spell t = ['}']) : t = .closeCurly := by
  rcases h with ⟨s, rfl, h⟩ | ⟨h, hf⟩
  · have hs : s = ['}'] := hs
    subst hs
    have h1 := lexStep_num_ok 0 ['}'] n.toList (by cases n <;> exact h)
    have h2 : lexStep ⟨0, ['}'] ++ n.toList⟩ = .tok 0 .closeCurly 1 ⟨1, n.toList⟩ := by
      cases n <;> rfl
    rw [h2] at h1
    cases h1
  · clear hf
    cases t
    case closeCurly => rfl
    case «variable» s =>
      have hs : s = ['}'] := hs
      subst hs
      obtain ⟨⟨c, r, h1, h2, _⟩, _⟩ := h
      cases h1
      exact absurd h2 (by decide)
    case sheBang s =>
      obtain ⟨u, rfl, _⟩ := h
      simp [spell] at hs
    case eof => exact h.elim
    case numeral => exact h.elim
    all_goals (first | (simp [spell] at hs; done) | (simp [spell, opener] at hs))

theorem tilesR_curly : ∀ {ts : List TokL} {s : Str} {a : Nat}, TilesR s a ts → ∀ t ∈ ts, spell t.tok = ['}'] → t.tok = .closeCurly
  | [], _, _, h => h.elim
  | t :: ts, s, a, h => by
    rcases h with ⟨h0, rfl, _⟩ | ⟨g, u, s', h0, rfl, _, h1, h2, _, h4, h3⟩
    · intro t' ht hs
      simp only [List.mem_cons, List.not_mem_nil, or_false] at ht
      subst ht
      rw [h0] at hs
      cases hs
    · intro t' ht hs
      rcases List.mem_cons.mp ht with rfl | ht
      · rcases h4 with ⟨_, h4⟩ | ⟨y, h4, _, _, h5⟩
        · exact curly_of_reads h4 hs
        · rw [h4] at h5 hs
          obtain ⟨u, rfl, _⟩ := h5
          simp [spell] at hs
      · exact tilesR_curly h3 t' ht hs

/-- What is before a token is complete. -/
theorem tilesR_gap : ∀ {ts pre post : List TokL} {t : TokL} {D s : Str}, TilesR s D.length ts → ts = pre ++ t :: post → t.tok ≠ .eof →
    Gap (((D ++ s).drop ((pre.getLast?.map (·.r)).getD D.length)).take (t.l - (pre.getLast?.map (·.r)).getD D.length))
  | [], _, _, _, _, _, h => h.elim
  | t0 :: ts, pre, post, t, D, s, h => by
    intro e he
    rcases h with ⟨h0, rfl, _⟩ | ⟨g, u, s', h0, rfl, hg, h1, h2, _, h4, h3⟩
    · cases pre with
      | nil =>
        rw [List.nil_append, List.cons.injEq] at e
        rw [e.1] at h0
        exact absurd h0 he
      | cons _ _ => simp at e
    · cases pre with
      | nil =>
        rw [List.nil_append, List.cons.injEq] at e
        obtain ⟨rfl, _⟩ := e
        simp only [List.getLast?_nil, Option.map_none, Option.getD_none]
        rw [slice_at rfl h1]
        exact hg
      | cons a pre =>
        rw [List.cons_append, List.cons.injEq] at e
        obtain ⟨rfl, e⟩ := e
        have hl : t0.r = (D ++ g ++ u).length := by simp only [List.length_append]; omega
        have := tilesR_gap (D := D ++ g ++ u) (s := s') (hl ▸ h3) e he
        rw [show ((t0 :: pre).getLast?.map (·.r)).getD D.length = (pre.getLast?.map (·.r)).getD t0.r by
          rw [List.getLast?_cons]; cases pre.getLast? <;> rfl, hl]
        simpa using this

/-- The line breaks before corresponding tokens of the source and of the output. -/
theorem format_kept (hh : BlankHints c) {src out : Str} {toks : List Token} (hc : KeepsLines c) (hf : format c src = .ok out)
    (ht : toksOf src = some (toks ++ [.eof])) (hk : KeepsApart c toks) :
    ∃ ts os, lexLua src = some ts ∧ lexLua out = some os ∧ ts.length = os.length ∧
      ∀ pre t post pre' t' post', ts = pre ++ t :: post → os = pre' ++ t' :: post' → pre.length = pre'.length →
      (t.tok ≠ .eof → Gap ((src.drop ((pre.getLast?.map (·.r)).getD 0)).take (t.l - (pre.getLast?.map (·.r)).getD 0))) ∧
      KeptNl c ((out.take ((pre'.getLast?.map (·.r)).getD 0)).getLast? = some '{' ∧ t.tok = .closeCurly) ((src.drop ((pre.getLast?.map (·.r)).getD 0)).take (t.l - (pre.getLast?.map (·.r)).getD 0))
        ((out.drop ((pre'.getLast?.map (·.r)).getD 0)).take (t'.l - (pre'.getLast?.map (·.r)).getD 0)) := by
  obtain ⟨tree, hp, hE⟩ := format_ok hc.range hf
  obtain ⟨ts, e, os, es, es', h1, h2, hO, _, h3, _, h5, _, h7, h8, hR⟩ :=
    tree_elems_render hh (.inl ⟨rfl, hc.range⟩) hp (hE.loose none)
  have : toks = tokensOf es := by
    rw [toksOf, h1] at ht
    simp [h2, h3] at ht
    exact ht.symm
  subst this
  have hlex := (h7 hk).lex
  rw [Nat.zero_add] at hlex
  have hT := lexFrom_tilesR 0 src _ h1
  have hend := tiles_end h2 (tilesR_tiles hT)
  rw [Nat.zero_add] at hend
  refine ⟨_, _, h1, hlex, ?_, ?_⟩
  · have := hR.length hc
    simpa using this
  · intro pre t post pre' t' post' e1 e2 e3
    refine ⟨fun he => by simpa using tilesR_gap (D := []) hT e1 he, ?_⟩
    have := hR.kept hc (DS := []) (DO := []) (e := ⟨out.length, .eof, out.length⟩) rfl (by simp) rfl e1 e2 e3 rfl ?_ (fun h => absurd h (by decide))
    · have h := this.mono (B' := (out.take ((pre'.getLast?.map (·.r)).getD 0)).getLast? = some '{' ∧ t.tok = .closeCurly) ?_
      · simpa using h
      · rintro ⟨h1, h2⟩
        refine ⟨?_, tilesR_curly hT t (by rw [e1]; simp) h2⟩
        simp only [List.nil_append, List.length_nil] at h1
        unfold lastOr at h1
        cases hs : (out.take ((pre'.getLast?.map (·.r)).getD 0)).getLast? with
        | none => rw [hs] at h1; exact absurd h1 (by decide)
        | some y => rw [hs] at h1; exact congrArg some h1
    · intro z hz hze
      rw [tilesR_eof hT z hz hze, Nat.zero_add]

end Luafmt
