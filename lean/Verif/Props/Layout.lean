import Verif.Props.Output
import Verif.Proofs.LayoutPair

/-
C39: the layout of the source leaves no trace where the options rewrite all of it. C28 for such configurations.
-/
namespace Luafmt
open Spec

/-! ### The elements of a source -/

/-- The elements of a text with these tokens. -/
def readElems : Str → Nat → List TokL → List Elem
  | _, _, [] => []
  | s, p, t :: ts => gapElems (s.take (t.l - p)) ++
    (if t.tok = .eof then [] else .tok t.tok :: readElems (s.drop (t.r - p)) t.r ts)

theorem readElems_reading : ∀ {ts : List TokL} {s : Str} {p : Nat}, Tiles s p ts → Clean s → Reading (readElems s p ts) s p ts
  | [], _, _, h, _ => h.elim
  | t :: ts, s, p, h, hc => by
    rcases h with ⟨h1, rfl, h3, h4, _⟩ | ⟨g, u, s', h1, rfl, h3, h4, h5, h6, h7, h8⟩
    · have : readElems s p [t] = gapElems s := by
        simp only [readElems, h1, if_true, List.append_nil, h4]
        congr 1
        rw [List.take_of_length_le]
        omega
      rw [this]
      exact .inl ⟨h1, rfl, (gapElems_final h3).2, (gapElems_final h3).1 hc, h4⟩
    · refine .inr ⟨gapElems g, g, u, s', readElems s' t.r ts, h1, ?_, rfl, (gapElems_gap h3).2, (gapElems_gap h3).1, h4, h5,
        readElems_reading h8 (hc.suffix ((List.suffix_append _ _).trans (List.suffix_append _ _)))⟩
      have e1 : t.l - p = g.length := by omega
      have e2 : t.r - p = g.length + u.length := by omega
      simp only [readElems, e1, e2, if_neg h1, List.take_left]
      rw [← List.append_assoc, ← List.length_append, List.drop_left]

/-- The elements of a source. -/
def elemsOf (src : Str) : List Elem := readElems src 0 ((lexLua src).getD [])

/-- Every source that can be lexed and does not end in a half-open long comment has elements. -/
theorem elemsOf_elements {src : Str} (h : (lexLua src).isSome) (hc : Clean src) : ElementsOf src (elemsOf src) := by
  obtain ⟨toks, h⟩ := Option.isSome_iff_exists.mp h
  refine ⟨toks, h, ?_⟩
  unfold elemsOf
  rw [h]
  exact readElems_reading (lexLua_tiles h) hc

/-- Elements are unique. -/
theorem reading_unique : ∀ {ts : List TokL} {es es' : List Elem} {s : Str} {p : Nat}, Reading es s p ts → Reading es' s p ts → es' = es
  | [], _, _, _, _, h, _ => h.elim
  | t :: ts, es, es', s, p, h, h' => by
    rcases h with ⟨h1, rfl, h3, h4, _⟩ | ⟨cs, g, u, s', fs, h1, rfl, rfl, h4, h5, h6, h7, h8⟩
    · rcases h' with ⟨_, _, k3, k4, _⟩ | ⟨_, _, _, _, _, k1, _⟩
      · exact text_unique h4 k4 h3 k3
      · exact absurd h1 k1
    · rcases h' with ⟨k1, _⟩ | ⟨cs', g', u', s'', fs', _, rfl, k3, k4, k5, k6, k7, k8⟩
      · exact absurd k1 h1
      · obtain ⟨rfl, k3'⟩ := List.append_inj k3 (by omega)
        obtain ⟨rfl, rfl⟩ := List.append_inj k3' (by omega)
        rw [text_unique h5 k5 h4 k4, reading_unique h8 k8]

/-- The elements of a source are unique. -/
theorem elementsOf_unique {src : Str} {es es' : List Elem} (h : ElementsOf src es) (h' : ElementsOf src es') : es' = es := by
  obtain ⟨toks, h1, h2⟩ := h
  obtain ⟨toks', h1', h2'⟩ := h'
  rw [h1] at h1'
  cases h1'
  exact reading_unique h2 h2'

theorem elementsOf_tokens {src : Str} {es : List Elem} (h : ElementsOf src es) : toksOf src = some (tokensOf es ++ [.eof]) := by
  obtain ⟨toks, h1, h2⟩ := h
  rw [toksOf, h1, Option.map_some, reading_tokens h2]

/-! ### C39 -/

/-- C39 where comments are removed: sources with the same tokens give the same result (an output text, or the same
failure). -/
theorem C39_same_tokens_same_output (c : Config) (hc : Relaid c) (hn : NoTrace c) (src src' : Str)
    (ht : toksOf src' = toksOf src) : format c src' = format c src := by
  refine format_moved hc ht (sameGap_blind hc hn rfl rfl (.here (Nat.zero_le _)) (.here (Nat.zero_le _))) ?_
  intro us e us' e' sb b P P' hus l hl
  have key : ∀ {s : Str} {vs : List TokL} {f : TokL}, Parsed s vs f sb b → vs.map (·.tok) = us.map (·.tok) →
      GapAt ⟨s, none⟩ (l.move (posAt 0 (vs ++ [f]))) := by
    intro s vs f Q hq
    have hp : parseLua s = some (placeChunk s.length (vs ++ [f]) sb b) := by
      unfold parseLua
      rw [Q.lex, Option.bind_eq_bind, Option.bind_some, Q.chunk]
      rfl
    refine (parseLua_live hp none).gaps _ _ ?_
    rw [Q.tree, allLocs_move, hq]
    exact List.mem_map_of_mem hl
  exact sameGap_blind hc hn rfl rfl (key P rfl) (key P' hus)

theorem reading_parsed {src : Str} {es : List Elem} {us : List TokL} {e : TokL} {sb b : Option C} (P : Parsed src us e sb b)
    (h : ElementsOf src es) : Reading es src 0 (us ++ [e]) := by
  obtain ⟨toks, h1, h2⟩ := h
  rw [P.lex] at h1
  cases h1
  exact h2

/-- C39 where comments are kept, or there are none: sources with the same tokens and comments give the same result, if
the lines on which comments stand make no difference. -/
theorem C39_same_elements_same_output (c : Config) (hc : Relaid c) (src src' : Str) (es : List Elem)
    (hp : CommentsFit c es) (h : ElementsOf src es) (h' : ElementsOf src' es) (hs : Clean src)
    (hs' : Clean src') : format c src' = format c src := by
  have ht : toksOf src' = toksOf src := by rw [elementsOf_tokens h, elementsOf_tokens h']
  refine format_moved hc ht (sameGap_elems hc (.inl rfl) rfl rfl (gapHas_here _) (gapHas_here _)) ?_
  intro us e us' e' sb b P P' hus l hl
  exact sameGap_elems hc (es := cutLoc es l) (hp.gap l) rfl rfl (P.gaps (reading_parsed P h) (.inl hs) l hl)
    (P'.gaps (reading_parsed P' h') (.inl hs') l (by rw [hus]; exact hl))

/-- A configuration that rewrites the layout: one statement per line, indented blocks. -/
def relaying : Config := cfg [(L!"remove_all_newlines", L!"true"), (L!"remove_spaces_between_tokens", L!"true"),
  (L!"replace_zero_spaces_with_hint", L!"true"), (L!"newline_format_statement", L!"1"), (L!"newline_format_if", L!"1"),
  (L!"indentation_string", L!"  "), (L!"field_separator", L!";")]

/-- The same without comments. -/
def stripping : Config := (relaying.set L!"remove_comments" L!"true")

theorem relaid_relaying : Relaid relaying :=
  ⟨by decide +kernel, by decide +kernel, rfl, by decide +kernel, .inl (by decide +kernel)⟩

theorem relaid_stripping : Relaid stripping :=
  ⟨by decide +kernel, by decide +kernel, rfl, by decide +kernel, .inl (by decide +kernel)⟩

theorem plain_relaying : PlainComments relaying := ⟨⟨by decide +kernel, by decide +kernel⟩, by decide +kernel⟩

theorem noTrace_stripping : NoTrace stripping where
  hint := by decide +kernel
  line := by decide +kernel
  long := by decide +kernel
  comments := by decide +kernel
  noLine := by decide +kernel
  noLong := by decide +kernel

/-- The hypotheses of `C39_same_tokens_same_output` hold for two layouts of a program, with different comments. -/
example : ∃ out src src', src = L!"if a then -- x\n b ( {1,2} ) ; c ()\nelse local x,y = 1 end return 1" ∧
    src' = L!"if a\nthen b({1,--[[one]] 2}); c()\n else\n local x, y=1\nend\n\nreturn 1 -- done" ∧
    toksOf src' = toksOf src ∧ format stripping src = .ok out ∧ format stripping src' = .ok out ∧
    out = L!"if a then\n  b({1; 2})\n  ;\n  c()\nelse\n  local x, y = 1\nend\nreturn 1" := by
  refine ⟨_, _, _, rfl, rfl, by decide +kernel, by decide +kernel, by decide +kernel, rfl⟩

/-- The hypotheses of `C39_same_elements_same_output` hold for two layouts of a program with comments. -/
example : ∃ src src' es, src = L!"f( a ,--[[b]]c ) -- d\n\ng {1}" ∧ src' = L!"f(a,--[[b]]c)-- d\n  g\n{ 1 }\n" ∧
    ElementsOf src es ∧ ElementsOf src' es ∧ Clean src ∧ Clean src' ∧ commentsOf es ≠ [] ∧
    format relaying src = .ok L!"f(a,--[[b]]c)-- d\ng{1}" := by
  have c1 : Clean L!"f( a ,--[[b]]c ) -- d\n\ng {1}" := clean_of (x := '}') (by decide +kernel) (by decide) (by decide)
  have c2 : Clean L!"f(a,--[[b]]c)-- d\n  g\n{ 1 }\n" := clean_of (x := '\n') (by decide +kernel) (by decide) (by decide)
  refine ⟨_, _, elemsOf L!"f( a ,--[[b]]c ) -- d\n\ng {1}", rfl, rfl, elemsOf_elements (by decide +kernel) c1, ?_, c1, c2,
    by decide +kernel, by decide +kernel⟩
  have := elemsOf_elements (src := L!"f(a,--[[b]]c)-- d\n  g\n{ 1 }\n") (by decide +kernel) c2
  rw [show elemsOf L!"f( a ,--[[b]]c ) -- d\n\ng {1}" = elemsOf L!"f(a,--[[b]]c)-- d\n  g\n{ 1 }\n" by decide +kernel]
  exact this

/-- The condition on one-line tests is needed: with `force_single_line_if` and `max_width` it matters how wide the
statement is in the source. -/
theorem C39_one_line_tests_see_the_layout : ∃ c src src', c = cfg [(L!"remove_all_newlines", L!"true"),
      (L!"remove_spaces_between_tokens", L!"true"), (L!"replace_zero_spaces_with_hint", L!"true"),
      (L!"newline_format_if", L!"1"), (L!"force_single_line_if", L!"true"), (L!"max_width", L!"20")] ∧
    src = L!"if a then b() end" ∧ src' = L!"if a                                then b() end" ∧
    elemsOf src' = elemsOf src ∧ format c src = .ok L!"if a then b() end" ∧ format c src' = .ok L!"if a then\nb()\nend" :=
  ⟨_, _, _, rfl, rfl, rfl, by decide +kernel, by decide +kernel, by decide +kernel⟩

/-- The condition on comments is needed: with `hint_before_comment` it matters whether comments are on one line. -/
theorem C39_comment_hint_sees_the_layout : ∃ c src src', c = cfg [(L!"remove_all_newlines", L!"true"),
      (L!"remove_spaces_between_tokens", L!"true"), (L!"replace_zero_spaces_with_hint", L!"true"),
      (L!"hint_before_comment", L!" ")] ∧
    src = L!"a = 1 --[[x]]\n--[[y]]" ∧ src' = L!"a = 1 --[[x]] --[[y]]" ∧
    elemsOf src' = elemsOf src ∧ format c src = .ok L!"a = 1 --[[x]]--[[y]]" ∧ format c src' = .ok L!"a = 1 --[[x]] --[[y]]" :=
  ⟨_, _, _, rfl, rfl, rfl, by decide +kernel, by decide +kernel, by decide +kernel⟩

/-! ### C28 -/

theorem rewrites_free {c : Config} {es es' : List Elem} (h : Rewrites c es es') (hn : commentsOf es = []) : commentsOf es' = [] := by
  induction h with
  | nil => rfl
  | tok _ _ ih => exact ih hn
  | @comment e e' es es' _ h2 _ ih =>
    cases e with
    | tok => cases e' <;> cases h2
    | line => cases hn
    | long => cases hn
  | @noComment e es es' _ h2 _ ih =>
    cases e with
    | tok => cases h2
    | line => cases hn
    | long => cases hn
  | @kept e es es' _ h2 _ ih =>
    cases e with
    | tok => cases h2
    | line => cases hn
    | long => cases hn
  | dropSep _ _ _ _ ih => exact ih hn
  | addSep _ _ _ _ _ ih => exact ih hn

/-- C28 where the layout is rewritten and the tokens stay apart, for configurations that remove comments and for
sources without comments: a second run changes nothing. Missing from the full claim: other configurations, for some
of which the claim fails (see the theorems in Identity.lean). -/
theorem C28_relaid_idempotent_partial (c : Config) (hc : Relaid c) (hh : BlankHints c) (src out : Str) (es : List Elem)
    (hs : Clean src) (he : ElementsOf src es) (hn : NoTrace c ∨ commentsOf es = []) (hk : KeepsApart c (tokensOf es))
    (hf : format c src = .ok out) : format c out = .ok out := by
  obtain ⟨tree, ts, e, os, es0, es', hp, h1, h2, hO, hos, h3, h4, h5, _, h7⟩ := format_elems hh (.inl hc.range) hf
  obtain rfl := elementsOf_unique he (h4 hs)
  obtain ⟨tree', hp', ht⟩ := outs_twin ⟨hc.tests.table, hc.range⟩ hp h1 h2 hO (h7 hk).lex rfl
  rw [← hf]
  rcases hn with hn | hn
  · refine format_twin hc.tests hc.range hp hp' (sameGap_blind hc hn rfl rfl (.here (Nat.zero_le _)) (.here (Nat.zero_le _))) ?_
    exact (ht.locs ((parseLua_live hp none).gaps _) ((parseLua_live hp' none).gaps _)).mono
      fun l l' h => sameGap_blind hc hn rfl rfl h.1 h.2
  · have key : ∀ {s : Str} {t : Node} {fs : List Elem}, parseLua s = some t → ElementsOf s fs → commentsOf fs = [] →
        ∀ l ∈ t.allLocs, GapHas ⟨s, none⟩ [] l := by
      intro s t fs ht hfs hn l hl
      obtain ⟨us, e, sb, b, P, rfl⟩ := parsed_of ht
      rw [P.tree, allLocs_move] at hl
      obtain ⟨k, hk, rfl⟩ := List.mem_map.mp hl
      have := P.gaps (reading_parsed P hfs) (.inr hn) k hk
      rw [cutLoc_none hn] at this
      exact this
    refine format_twin hc.tests hc.range hp hp' (sameGap_elems hc (.inl rfl) rfl rfl (gapHas_here _) (gapHas_here _)) ?_
    exact (ht.locs (key hp he hn) (key hp' ((h7 hk).lexed 0) (rewrites_free h5 hn))).mono
      fun l l' h => sameGap_elems hc (.inl rfl) rfl rfl h.1 h.2

theorem parsed_lex {src : Str} {tree : Node} {toks : List TokL} (h : parseLua src = some tree) (hl : lexLua src = some toks) :
    ∃ us e sb b, Parsed src us e sb b ∧ tree = placeChunk src.length (us ++ [e]) sb b ∧ toks = us ++ [e] := by
  obtain ⟨us, e, sb, b, P, ht⟩ := parsed_of h
  refine ⟨us, e, sb, b, P, ht, ?_⟩
  have := P.lex
  rw [hl] at this
  exact Option.some.inj this

/-- C28 where the layout is rewritten, the tokens stay apart and the comments stay: a second run changes nothing, if the
lines on which comments stand make no difference and no option adds or drops separators. Missing from the full claim:
other configurations, for some of which the claim fails (see `C28_fails_for_comment_hint` and the theorems in
Identity.lean). -/
theorem C28_comments_idempotent_partial (c : Config) (hc : Relaid c) (hh : BlankHints c) (src out : Str) (es : List Elem)
    (hs : Clean src) (he : ElementsOf src es) (hr : c.bool .removeComments ≠ some true)
    (ht : c.bool .writeTrailingFieldSeparator = none) (hn : CommentsFit c es) (hk : KeepsApart c (tokensOf es))
    (hf : format c src = .ok out) : format c out = .ok out := by
  have hE : Even c := ⟨ht, hc.tests.table, hc.range, fun h => (by rcases hh.sep _ h with h | h <;> cases h)⟩
  obtain ⟨tree, ts, e, os, es0, es', hp, h1, h2, hO, hos, h3, h4, h5, _, h7⟩ := format_elems hh (.inl hc.range) hf
  obtain rfl := elementsOf_unique he (h4 hs)
  have hR := h7 hk
  obtain ⟨tree', hp', _⟩ := outs_twin ⟨hc.tests.table, hc.range⟩ hp h1 h2 hO hR.lex rfl
  obtain ⟨sb, b, b', k1, k2, k3⟩ := outs_chunk hp h1 h2 hO hR.lex rfl
  obtain ⟨us, e1, sb1, b1, P, rfl, u1⟩ := parsed_lex hp h1
  obtain ⟨us', e2, sb2, b2, P', rfl, u2⟩ := parsed_lex hp' (show lexLua out = some _ from hR.lex)
  have q1 := P.chunk
  have q2 := P'.chunk
  rw [← u1, k1] at q1
  rw [← u2, k2] at q2
  cases q1
  cases q2
  have hl : (us'.map (·.tok)).length = (us.map (·.tok)).length := by
    have l1 := congrArg List.length u1
    have l2 := congrArg List.length u2
    simp only [List.length_append, List.length_singleton] at l1 l2
    rw [List.length_map, List.length_map]
    have l3 := rewrites_length hE h5
    rw [← hos, ← h3, List.length_map, List.length_map] at l3
    omega
  have hT := idxTree_alt hE (ts := us.map (·.tok)) (ts' := us'.map (·.tok)) (sb := sb) (b := b) (b' := b')
    (by have := P.chunk; rw [List.map_append, List.map_singleton, P.eof] at this; exact this)
    (by have := P'.chunk; rw [List.map_append, List.map_singleton, P'.eof] at this; exact this) k3 hl
  rw [← hf]
  refine format_twin hc.tests hc.range hp hp' (sameGap_elems hc (.inl rfl) rfl rfl (gapHas_here _) (gapHas_here _)) ?_
  rw [P.tree, P'.tree]
  refine twin_move hT fun l hl => ?_
  refine sameGap_sim hc (hn.gap l) ?_ rfl rfl (P.gaps (reading_parsed P he) (.inl hs) l hl)
    (P'.gaps_read hR l (by rw [twin_locs hT]; exact hl))
  unfold cutLoc
  split
  · exact .nil
  · exact rewrites_cut hE hh hr h5 _

/-- A test for `LoneComments`. -/
def lone : List Elem → Bool
  | e :: e' :: es => !(e.isComment && e'.isComment) && lone (e' :: es)
  | _ => true

theorem lone_ok : ∀ {es : List Elem}, lone es = true → LoneComments es
  | [], _, as, bs, e, e', h => by simp at h
  | [x], _, as, bs, e, e', h => by
    have := congrArg List.length h
    simp at this
    omega
  | x :: y :: es, hl, [], bs, e, e', h => by
    simp only [lone, Bool.and_eq_true, Bool.not_eq_true'] at hl
    simp only [List.nil_append, List.cons.injEq] at h
    obtain ⟨rfl, rfl, _⟩ := h
    rintro ⟨h1, h2⟩
    rw [h1, h2] at hl
    cases hl.1
  | x :: y :: es, hl, _ :: as, bs, e, e', h => by
    simp only [lone, Bool.and_eq_true] at hl
    simp only [List.cons_append, List.cons.injEq] at h
    exact lone_ok hl.2 as bs e e' h.2

/-- The hypotheses hold for a program with comments, with a hint in front of each of them. -/
example : ∃ c src out es, c = (relaying.set L!"hint_before_comment" L!" ").set L!"hint_before_oneline_comment_text" L!" " ∧
    src = L!"if  a then --x\n f( b,--[[y]]c )  end --  z\n" ∧
    Relaid c ∧ BlankHints c ∧ Clean src ∧ ElementsOf src es ∧ c.bool .removeComments ≠ some true ∧
    c.bool .writeTrailingFieldSeparator = none ∧ CommentsFit c es ∧ commentsOf es ≠ [] ∧ KeepsApart c (tokensOf es) ∧
    format c src = .ok out ∧ out ≠ src := by
  have c1 : Clean L!"if  a then --x\n f( b,--[[y]]c )  end --  z\n" := clean_of (x := '\n') (by decide +kernel) (by decide) (by decide)
  refine ⟨_, _, L!"if a then -- x\n  f(b, --[[y]]c)\nend -- z\n", _, rfl, rfl, ?_, ?_, c1, elemsOf_elements (by decide +kernel) c1,
    by decide +kernel, by decide +kernel, .inr ⟨⟨by decide +kernel, by decide +kernel⟩, .inr (lone_ok (by decide +kernel))⟩,
    by decide +kernel,
    keepsApart_of (by decide +kernel) (.inr ⟨by decide +kernel, .inr ⟨L!" ", by decide +kernel, by decide⟩, by decide +kernel⟩),
    by decide +kernel, by decide +kernel⟩
  · exact ⟨by decide +kernel, by decide +kernel, rfl, by decide +kernel, .inl (by decide +kernel)⟩
  · constructor <;> simp +decide [relaying]

/-- The condition on comments is needed: `hint_before_comment` is written in front of a comment of the output that was on
a line of its own in the source. -/
theorem C28_fails_for_comment_hint : ∃ c src out out', c = cfg [(L!"remove_all_newlines", L!"true"),
      (L!"remove_spaces_between_tokens", L!"true"), (L!"replace_zero_spaces_with_hint", L!"true"),
      (L!"hint_before_comment", L!" ")] ∧
    src = L!"a = 1 --[[x]]\n--[[y]]" ∧ format c src = .ok out ∧ format c out = .ok out' ∧ out' ≠ out :=
  ⟨_, _, L!"a = 1 --[[x]]--[[y]]", L!"a = 1 --[[x]] --[[y]]", rfl, rfl, by decide +kernel, by decide +kernel, by decide +kernel⟩

/-- The hypotheses hold for a program with comments, of which the first run removes the comments. -/
example : ∃ src out es, src = L!"if a then -- x\n b ( {1,2} ) ; c ()\nelse local x,y = 1 end return 1" ∧ Clean src ∧
    ElementsOf src es ∧ KeepsApart stripping (tokensOf es) ∧ format stripping src = .ok out ∧ out ≠ src ∧
    format stripping out = .ok out := by
  have c1 : Clean L!"if a then -- x\n b ( {1,2} ) ; c ()\nelse local x,y = 1 end return 1" :=
    clean_of (x := '1') (by decide +kernel) (by decide) (by decide)
  have e1 := elemsOf_elements (src := L!"if a then -- x\n b ( {1,2} ) ; c ()\nelse local x,y = 1 end return 1") (by decide +kernel) c1
  have k1 : KeepsApart stripping (tokensOf (elemsOf L!"if a then -- x\n b ( {1,2} ) ; c ()\nelse local x,y = 1 end return 1")) :=
    keepsApart_of (by decide +kernel) (.inr ⟨by decide +kernel, .inl ⟨by decide +kernel, rfl⟩, by decide +kernel⟩)
  have f1 : format stripping L!"if a then -- x\n b ( {1,2} ) ; c ()\nelse local x,y = 1 end return 1" =
    .ok L!"if a then\n  b({1; 2})\n  ;\n  c()\nelse\n  local x, y = 1\nend\nreturn 1" := by decide +kernel
  exact ⟨_, _, _, rfl, c1, e1, k1, f1, by decide +kernel, C28_relaid_idempotent_partial stripping relaid_stripping
    (by constructor <;> simp +decide [stripping]) _ _ _ c1 e1 (.inl noTrace_stripping) k1 f1⟩

/-- They hold for a program without comments, with a configuration that keeps comments. -/
example : ∃ c src out es, c = relaying.set L!"hint_before_comment" L!" " ∧ src = L!"while  x do f { a=1,\n[ 2 ] = b } end" ∧
    Relaid c ∧ BlankHints c ∧ Clean src ∧ ElementsOf src es ∧ commentsOf es = [] ∧ KeepsApart c (tokensOf es) ∧
    format c src = .ok out ∧ out ≠ src := by
  have c1 : Clean L!"while  x do f { a=1,\n[ 2 ] = b } end" := clean_of (x := 'd') (by decide +kernel) (by decide) (by decide)
  refine ⟨_, _, L!"while x do f{a = 1; [2] = b} end", _, rfl, rfl, ?_, ?_, c1, elemsOf_elements (by decide +kernel) c1,
    by decide +kernel, keepsApart_of (by decide +kernel) (.inr ⟨by decide +kernel, .inr ⟨L!" ", by decide +kernel, by decide⟩, by decide +kernel⟩),
    by decide +kernel, by decide +kernel⟩
  · exact ⟨by decide +kernel, by decide +kernel, rfl, by decide +kernel, .inl (by decide +kernel)⟩
  · constructor <;> simp +decide [relaying]

end Luafmt
