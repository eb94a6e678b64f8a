import Verif.Spec.Syntax
import Verif.Proofs.ParserComplete
import Verif.Proofs.Reading
import Verif.Props.Printing
import Verif.Props.Runs

/-
C25, C26, C29, C38: syntax trees, rejected sources, the shebang line.
-/
namespace Luafmt
open Spec

/-! ### C26 -/

theorem block_first {b : Cst Token} (h : Derives .block b) : ∃ t ts, b.yield = t :: ts ∧ t ≠ .eof ∧ ∀ s, t ≠ .sheBang s := by
  obtain ⟨t, ts, h1, h2⟩ := derives_first h
  refine ⟨t, ts, h1, ?_, ?_⟩
  · rintro rfl
    exact absurd h2 (by decide)
  · rintro s rfl
    exact absurd h2 (show Token.kind (.sheBang []) ∉ _ by decide)

/-- The parser's result for a shebang line and a block. -/
def Spec.asParsed (sb : Option Str) (b : Option (Cst Token)) : Option (Cst Token) × Option (Cst Token) :=
  (sb.map fun s => .node (.sheBang s) [.tok (.sheBang s)], b)

theorem parseChunk_complete {ts : List Token} {sb : Option Str} {b : Option (Cst Token)} (h : IsProgram ts sb b) :
    parseChunk ts = some (asParsed sb b) := by
  obtain ⟨h1, rfl⟩ := h
  cases sb with
  | none =>
    cases b with
    | none => rfl
    | some x =>
      obtain ⟨t, us, e1, e2, e3⟩ := block_first (h1 x rfl)
      have hb := parseBlock_complete (h1 x rfl) (t := .eof) rfl []
      have hc : chunkTokens none (some x) = t :: (us ++ [.eof]) := by simp [chunkTokens, e1]
      rw [e1] at hb
      rw [hc]
      unfold parseChunk
      split
      · next s ts heq =>
        cases heq
        exact absurd rfl (e3 s)
      · rw [if_neg (by intro e; exact e2 (by injection e)), ← List.cons_append, hb]
        rfl
  | some s =>
    cases b with
    | none => rfl
    | some x =>
      obtain ⟨t, us, e1, e2, e3⟩ := block_first (h1 x rfl)
      have hb := parseBlock_complete (h1 x rfl) (t := .eof) rfl []
      have hc : chunkTokens (some s) (some x) = .sheBang s :: (x.yield ++ [.eof]) := by simp [chunkTokens]
      rw [hc]
      simp only [parseChunk]
      rw [if_neg (by rw [e1]; intro e; exact e2 (by injection e)), hb]
      rfl

/-- C26. The parser finds exactly the derivations of the grammar. -/
theorem C26_parser_finds_the_tree (ts : List Token) (sb : Option Str) (b : Option (Cst Token)) :
    IsProgram ts sb b ↔ parseChunk ts = some (asParsed sb b) := by
  refine ⟨parseChunk_complete, fun h => ?_⟩
  obtain ⟨_, h2, h3⟩ := parseChunk_sound h
  refine ⟨h2, ?_⟩
  rw [h3]
  cases sb <;> cases b <;> simp [chunkTokens, Cst.yields, Cst.yield]

/-- C26. A token sequence has at most one derivation. -/
theorem C26_unambiguous (ts : List Token) (sb sb' : Option Str) (b b' : Option (Cst Token))
    (h : IsProgram ts sb b) (h' : IsProgram ts sb' b') : sb = sb' ∧ b = b' := by
  have e := (parseChunk_complete h).symm.trans (parseChunk_complete h')
  simp only [asParsed, Option.some.injEq, Prod.mk.injEq] at e
  refine ⟨?_, e.2⟩
  cases sb <;> cases sb' <;> simp at e ⊢
  exact e.1

/-- C26. Whatever the parser returns is a derivation, so a token sequence is rejected exactly when it has
none. -/
theorem C26_rejects_only_without_tree (ts : List Token) :
    parseChunk ts = none ↔ ¬ ∃ sb b, IsProgram ts sb b := by
  constructor
  · rintro h ⟨sb, b, h'⟩
    rw [parseChunk_complete h'] at h
    cases h
  · intro h
    cases hp : parseChunk ts with
    | none => rfl
    | some p =>
      obtain ⟨sb, b⟩ := p
      obtain ⟨h1, h2, h3⟩ := parseChunk_sound hp
      refine absurd ?_ h
      cases sb with
      | none => exact ⟨none, b, h2, by rw [h3]; cases b <;> simp [chunkTokens, Cst.yields]⟩
      | some x =>
        obtain ⟨s, rfl⟩ := h1 x rfl
        exact ⟨some s, b, h2, by rw [h3]; cases b <;> simp [chunkTokens, Cst.yields, Cst.yield]⟩

/-- A text is accepted exactly when it has a tree. -/
theorem accepted_iff (src : Str) : Accepted src ↔ (parseLua src).isSome = true := by
  unfold Accepted parseLua
  cases hl : lexLua src with
  | none => simp
  | some toks =>
    have := C26_rejects_only_without_tree (toks.map TokL.tok)
    cases hp : parseChunk (toks.map TokL.tok) with
    | none =>
      rw [hp] at this
      have hn := this.1 rfl
      simp only [Option.bind_eq_bind, Option.bind_some, hp, Option.bind_none, Option.isSome_none]
      refine ⟨?_, fun h => by cases h⟩
      rintro ⟨toks', sb, b, h1, h2⟩
      cases h1
      exact absurd ⟨sb, b, h2⟩ hn
    | some p =>
      rw [hp] at this
      simp only [Option.bind_eq_bind, Option.bind_some, hp, Option.isSome_some, iff_true]
      have hne : ¬ ¬ ∃ sb b, IsProgram (toks.map TokL.tok) sb b := fun h => by cases this.2 h
      obtain ⟨sb, b, h⟩ := Classical.not_not.1 hne
      exact ⟨toks, sb, b, rfl, h⟩

/-- A program with the ambiguities that a Lua grammar must settle: a call after a statement, unary and
binary minus, `^`, nested `if`. -/
def Spec.trickyProgram : Str :=
  L!"f()\nlocal x = -a.b ^ 2 .. c .. d or not e\nif x then g{1} else if y then (h)\"s\" end end"

example : Accepted trickyProgram := (accepted_iff _).2 (by decide +kernel)

/-- Whitespace before an opening bracket does not start a new statement. -/
example : ¬ Accepted L!"local a = 1 )" := fun h => absurd ((accepted_iff _).1 h) (by decide +kernel)

/-! ### C38 -/

/-- C38. Formatting reports a parsing error exactly for the texts that are not accepted, whatever the
configuration. -/
theorem C38_parsing_error_iff_rejected (c : Config) (src : Str) :
    format c src = .error .parsing ↔ ¬ Accepted src := by
  rw [accepted_iff]
  unfold format
  cases hp : parseLua src with
  | none => simp
  | some tree =>
    simp only [Option.isSome_some, not_true, iff_false]
    split <;> simp

/-- C38. A rejected file is left alone and nothing is printed for it, whatever the options; something is
reported (or the run ends, when its configuration file cannot be read). -/
theorem C38_rejected_file (c : Config) (o : ProgramOpts) (p : Path) (w : World) (text : Str)
    (hr : w.fs.read p = some text) (hn : ¬ Accepted text) (ha : w.aborted = false) :
    (processPath c o p w).fs = w.fs ∧ texts (processPath c o p w).out = texts w.out ∧
    ((∃ e, .processing p e ∈ (processPath c o p w).err) ∨ (processPath c o p w).aborted = true) := by
  have hf : ∀ c', format c' text = .error .parsing := fun c' => (C38_parsing_error_iff_rejected c' text).2 hn
  have hp : ∀ s, processFile w.fs c p ≠ .ok s := by
    intro s h
    unfold processFile at h
    split at h
    · cases h
    · rw [hr] at h
      simp only at h
      split at h
      · split at h
        · cases h
        · split at h
          · cases h
          · split at h
            · cases h
            · rw [hf] at h; cases h
      · rw [hf] at h; cases h
  unfold processPath
  simp only [ha]
  cases hq : processFile w.fs c p with
  | ok s => exact absurd hq (hp s)
  | error e => exact ⟨rfl, by simp [texts_append, texts_notes], .inl ⟨e, by simp⟩⟩
  | panic => exact ⟨rfl, by simp [texts_append, texts_notes], .inr rfl⟩

/-- C38. In stdin mode a rejected text is reported, and nothing is printed. -/
theorem C38_rejected_stdin (args : List Str) (h : ∀ a ∈ args, a.head? = some '-') (text : Str) (hn : ¬ Accepted text)
    (cwd : Path) (fs : FS) :
    texts (runMain args cwd (some text) fs).out = [] ∧ (runMain args cwd (some text) fs).fs = fs ∧
    .processingBuffer .parsing ∈ (runMain args cwd (some text) fs).err := by
  have hs : (splitArgs args).2 = [] := by
    have := (C22_arguments_are_split args).2
    have h0 : args.filter (fun a => !(a.head? == some '-')) = [] := by
      rw [List.filter_eq_nil_iff]
      intro a ha
      simp [h a ha]
    rw [h0] at this
    exact this.eq_nil
  have hf : ∀ c', format c' text = .error .parsing := fun c' => (C38_parsing_error_iff_rejected c' text).2 hn
  unfold runMain
  simp only [hs, if_true, hf]
  exact ⟨by simp [texts_append, texts_notes], trivial, by simp⟩

example : ¬ Accepted L!"a = = 1" := fun h => absurd ((accepted_iff _).1 h) (by decide +kernel)
example : ¬ Accepted L!"a = \"open" := fun h => absurd ((accepted_iff _).1 h) (by decide +kernel)

/-! ### C25 -/

/-- C25. Reading the tree of a source in order covers the source from its start to its end, every gap
once, and the words read are the tokens. -/
theorem C25_tree_covers_source (src : Str) (tree : Node) (h : parseLua src = some tree) :
    ∃ toks, lexLua src = some toks ∧ Covers src 0 (reading tree) ∧
      wordsOf (reading tree) ++ [[]] = toks.map (fun t => spell t.tok) := by
  obtain ⟨toks, e, h1, h2, h3⟩ := parseLua_tile Config.default h
  have hT := lexFrom_tilesR 0 src _ h1
  have hend := tiles_end h2 (tilesR_tiles hT)
  rw [Nat.zero_add] at hend
  obtain ⟨k1, k2⟩ := tile_covers (e := e) (h3 hend) rfl h2 rfl src rfl (Nat.zero_le _) hT
  rw [items_reading] at k1 k2
  exact ⟨toks ++ [e], h1, k1, k2⟩

/-- The reading of a small program. -/
example : (parseLua L!"a = {1,} -- x").map reading = some
    [.gap 0 0, .gap 0 0, .gap 0 0, .word L!"a", .gap 1 1, .gap 1 2, .word L!"=", .gap 3 4, .gap 4 4, .word L!"{",
      .gap 5 5, .gap 5 5, .word L!"1", .gap 6 6, .word L!",", .gap 7 7, .word L!"}", .gap 8 8, .gap 8 13] := by
  decide +kernel

/-! ### C29 -/

/-- The first line of a text. -/
def Spec.firstLine (s : Str) : Str := s.takeWhile (· ≠ '\n')

theorem lexLua_shebang {rest : Str} {toks : List TokL} (h : lexLua ('#' :: '!' :: rest) = some toks) :
    ∃ t ts, toks = t :: ts ∧ t.tok = .sheBang (firstLine ('#' :: '!' :: rest)) ∧ t.l = 0 := by
  have hfl : firstLine ('#' :: '!' :: rest) = '#' :: '!' :: rest.takeWhile (· ≠ '\n') := by
    simp [firstLine]
  have hnl : '\n' ∉ rest.takeWhile (· ≠ '\n') := by
    intro hm
    have := List.all_takeWhile (p := fun c : Char => decide (c ≠ '\n')) (l := rest)
    rw [List.all_eq_true] at this
    have := this _ hm
    simp at this
  have key : ∀ r c, lexStep ⟨0, '#' :: '!' :: rest⟩ = .tok 0 (.sheBang (firstLine ('#' :: '!' :: rest))) r c →
      ∃ t ts, toks = t :: ts ∧ t.tok = .sheBang (firstLine ('#' :: '!' :: rest)) ∧ t.l = 0 := by
    intro r c hs
    have h : lexFrom 0 ('#' :: '!' :: rest) = some toks := h
    rw [lexFrom_tok hs, Option.map_eq_some_iff] at h
    obtain ⟨ts, _, rfl⟩ := h
    exact ⟨_, _, rfl, rfl, rfl⟩
  generalize hy : rest.takeWhile (· ≠ '\n') = y at hfl hnl
  have hsplit : rest = y ++ rest.dropWhile (· ≠ '\n') := by rw [← hy, List.takeWhile_append_dropWhile]
  cases hd : rest.dropWhile (· ≠ '\n') with
  | nil =>
    rw [hd, List.append_nil] at hsplit
    subst hsplit
    have := getShebangEnds_eof 2 _ hnl
    refine key (2 + rest.length) ⟨2 + rest.length, []⟩ ?_
    rw [hfl]
    simp [lexStep, single, double, lexHash, this]
  | cons x r =>
    have hx : x = '\n' := by
      have := List.head?_dropWhile_not (p := fun c : Char => decide (c ≠ '\n')) (l := rest)
      rw [hd] at this
      simpa using this
    rw [hd, hx] at hsplit
    have := getShebangEnds_nl 2 y r hnl
    rw [← hsplit] at this
    refine key (2 + y.length + 1) ⟨2 + y.length + 1, r⟩ ?_
    rw [hfl]
    simp [lexStep, single, double, lexHash, this]

theorem commentHint_start {env : Env} {c : Config} {lvl : Int} {g : Str} (hb : env.buf ≠ [])
    (h : commentHint env c lvl ⟨0, 0⟩ [] [] = .ok g) : g = [] := by
  have hc : charToByte env.buf 0 = some 0 := by
    cases hbuf : env.buf with
    | nil => exact absurd hbuf hb
    | cons x xs => simp [charToByte, byteLen]
  have hsub : ∀ b : Str, substr env.buf ⟨0, 0⟩ b 0 = .ok [] := by
    intro b
    simp [substr, hc, sliceBytes, dropBytes, takeBytes]
  unfold commentHint at h
  split at h
  · simp only [hsub, Res.bind_ok, Res.pure_eq] at h
    cases h
    rfl
  · simp only [hsub, Res.bind_ok] at h
    have hp : parseComment [] = some ⟨⟨0, 0⟩, ⟨0, 0⟩, [], ⟨0, 0⟩⟩ := by decide
    rw [hp] at h
    have hput : ∀ f : Str, (CEnv.mk env [] 0 (commentRange env.posRange 0) lvl).put ⟨0, 0⟩ f = .ok f := by
      intro f
      simp [CEnv.put, hsub]
    have hsp : ∀ f : Str, spaceHint ⟨env, [], 0, commentRange env.posRange 0, lvl⟩ c ⟨0, 0⟩ [] f = .ok f := by
      intro f
      unfold spaceHint
      split
      · exact hput f
      · split
        · simp
        · exact hput f
    have hw : ∀ f : Str, cchunkWrite ⟨env, [], 0, commentRange env.posRange 0, lvl⟩ c ⟨⟨0, 0⟩, ⟨0, 0⟩, [], ⟨0, 0⟩⟩ f = .ok f := by
      intro f
      unfold cchunkWrite
      split
      · exact hput f
      · simp only [hsp, Res.bind_ok]
        have : cvariantWrite ⟨env, [], 0, commentRange env.posRange 0, lvl⟩ c ⟨⟨0, 0⟩, ⟨0, 0⟩, [], ⟨0, 0⟩⟩ f = .ok f := by
          unfold cvariantWrite
          split
          · exact hput f
          · simp
        rw [this, Res.bind_ok]
    simp only [hw, Res.bind_ok] at h
    have hd : dropBytes 1 [([] : Str).getLast?.getD ' '] = some [] := by decide
    rw [hd] at h
    simp only [Res.pure_eq, commentBlockText, if_true, ite_self, List.append_nil] at h
    cases h
    rfl

/-- C29. If a source starts with a shebang line, whatever is printed for it starts with this line and a
newline, under every configuration. -/
theorem C29_shebang_stays_first (c : Config) (rest out : Str) (h : format c ('#' :: '!' :: rest) = .ok out) :
    firstLine ('#' :: '!' :: rest) ++ ['\n'] <+: out := by
  generalize hsrc : '#' :: '!' :: rest = src at h ⊢
  have hne : src ≠ [] := by rw [← hsrc]; simp
  unfold format at h
  split at h
  · cases h
  · next tree htree =>
    split at h
    · next s hs =>
      cases h
      simp only [formatTree, Res.bind_eq_ok] at hs
      obtain ⟨pr, _, hs⟩ := hs
      simp only [writeTree, Res.bind_eq_ok, Res.pure_eq] at hs
      obtain ⟨st, h1, h2⟩ := hs
      cases h2
      unfold parseLua at htree
      simp only [Option.bind_eq_bind, Option.bind_eq_some_iff, Option.some.injEq, Prod.exists] at htree
      obtain ⟨toks, hlex, sb, b, hc, rfl⟩ := htree
      rw [← hsrc] at hlex
      obtain ⟨t, ts, rfl, t1, t2⟩ := lexLua_shebang hlex
      rw [hsrc] at t1
      generalize firstLine src = line at t1 ⊢
      have hgrow : ∀ (m : Node) (over : Option Bool) (s1 s2 : St),
          (mkR ⟨src, pr⟩ (annotate c over m)).w c s1 = .ok s2 → Grows s1.f s2.f :=
        fun m over s1 s2 hw => (ctx_ok _ c _ c s1 s2 (.refl c) hw).2.grows
      have hnl : ∀ (b : Bool) (loc : Loc) (x : Str) (s1 s2 : St), nlW ⟨src, pr⟩ c b loc x s1 = .ok s2 → Grows s1.f s2.f := by
        intro b loc x s1 s2 hn
        simp only [nlW, Res.bind_eq_ok, Res.pure_eq] at hn
        obtain ⟨f, hf, hn⟩ := hn
        cases hn
        exact ifNewLine_grows hf
      have hhint : ∀ (loc : Loc) (x : Str) (s1 s2 : St), hintW ⟨src, pr⟩ c loc x s1 = .ok s2 → Grows s1.f s2.f := by
        intro loc x s1 s2 hn
        simp only [hintW, Res.bind_eq_ok, Res.pure_eq] at hn
        obtain ⟨f, hf, hn⟩ := hn
        cases hn
        obtain ⟨g, rfl⟩ := commentHint_append hf
        exact .append _ _
      have hfirst : ∀ (s1 s2 : St), s1.f = [] → hintW ⟨src, pr⟩ c ⟨0, 0⟩ [] s1 = .ok s2 → s2.f = [] := by
        intro s1 s2 h0 hn
        simp only [hintW, Res.bind_eq_ok, Res.pure_eq] at hn
        obtain ⟨f, hf, hn⟩ := hn
        cases hn
        rw [h0] at hf
        exact commentHint_start hne hf
      have hleaf : ∀ (over : Option Bool) (sp : Loc) (s1 s2 : St), s1.f = [] →
          (mkR ⟨src, pr⟩ (annotate c over (.mk (.sheBang line) sp [] []))).w c s1 = .ok s2 → s2.f = line ++ ['\n'] := by
        intro over sp s1 s2 h0 hn
        have : (mkR ⟨src, pr⟩ (annotate c over (.mk (.sheBang line) sp [] []))).w c s1 = .ok (s1.put (line ++ ['\n'])) := rfl
        rw [this] at hn
        cases hn
        simp [St.put, h0]
      have hsb : sb = some (.node (.sheBang line) [.tok (.sheBang line)]) := by
        rw [List.map_cons, t1] at hc
        simp only [parseChunk] at hc
        split at hc
        · cases hc; rfl
        · split at hc
          · cases hc; rfl
          · cases hc
      subst hsb
      have hn : placeNode (attach (.node (.sheBang line) [.tok (.sheBang line)]) (t :: ts)).1 =
          .mk (.sheBang line) ⟨t.l, t.r⟩ [] [] := rfl
      have hfin : ∀ f : Str, Grows (line ++ ['\n']) f → line ++ ['\n'] <+: f :=
        fun f hg => hg _ (by simp [NoTab]) (List.prefix_refl _)
      cases b with
      | none =>
        simp only [placeChunk, hn, Node.span] at h1
        have hw : ∀ (ks : List Node) locs sp, (mkR ⟨src, pr⟩ (.mk .chunk sp locs ks)).w c =
            runAll (runFm ⟨src, pr⟩ locs (mkRs ⟨src, pr⟩ ks) c)
              [.el (.hint 0 []), .el (.kid 0), .el (.nl (decide (c.bool .writeNewlineAtEof = some true)) 1 [])] :=
          fun _ _ _ => rfl
        simp only [annotate, annotateAll, annotateTag, hw, mkRs, runAll, runFm, runEl, kidW, Res.bind_eq_ok,
          Res.pure_eq, List.getElem?_cons_zero, t2] at h1
        obtain ⟨s1, e1, s2, e2, s3, e3, e4⟩ := h1
        cases e4
        have a1 := hfirst _ _ rfl e1
        have a2 := hleaf none _ _ _ a1 e2
        exact hfin _ (a2 ▸ hnl _ _ _ _ _ e3)
      | some x =>
        simp only [placeChunk, hn, Node.span] at h1
        have hw : ∀ (ks : List Node) locs sp, (mkR ⟨src, pr⟩ (.mk .sheBangChunk sp locs ks)).w c =
            runAll (runFm ⟨src, pr⟩ locs (mkRs ⟨src, pr⟩ ks) c)
              [.el (.hint 0 []), .el (.kid 0), .el (.hint 1 []), .el (.kid 1),
              .el (.nl (decide (c.bool .writeNewlineAtEof = some true)) 2 [])] :=
          fun _ _ _ => rfl
        simp only [annotate, annotateAll, annotateTag, hw, mkRs, runAll, runFm, runEl, kidW, Res.bind_eq_ok,
          Res.pure_eq, List.getElem?_cons_zero, List.getElem?_cons_succ, t2] at h1
        obtain ⟨s1, e1, s2, e2, s3, e3, s4, e4, s5, e5, e6⟩ := h1
        cases e6
        have a1 := hfirst _ _ rfl e1
        have a2 := hleaf none _ _ _ a1 e2
        exact hfin _ (a2 ▸ ((hhint _ _ _ _ e3).trans ((hgrow _ _ _ _ e4).trans (hnl _ _ _ _ _ e5))))
    · cases h
    · cases h

example : format (Config.default.set L!"remove_all_newlines" L!"true") L!"#!/bin/lua\n\na = 1\n" =
    .ok L!"#!/bin/lua\na = 1" := by decide +kernel

end Luafmt
