import Verif.Props.Output

/-
C37: comment texts are stable.
-/
namespace Luafmt
open Spec

/-- A comment as the comment lexer reads it. -/
def commentTok : Elem → CTok
  | .tok _ => .newLine
  | .line s => .oneLine s
  | .long n s => .multiLine n s

theorem trimStart_idem {p : Str} (hp : Blank p) (s : Str) : trimStart (p ++ trimStart s) = trimStart s := by
  rw [trimStart_padL (.of_blank hp)]
  induction s with
  | nil => rfl
  | cons x s ih =>
    simp only [trimStart, List.dropWhile_cons]
    split
    · exact ih
    · next h => rw [List.dropWhile_cons, if_neg h]

theorem trimEnd_idem {q : Str} (hq : Blank q) (s : Str) : trimEnd (trimEnd s ++ q) = trimEnd s := by
  rw [trimEnd_padR (.of_blank hq)]
  unfold trimEnd dropEndWhile
  rw [List.reverse_reverse]
  congr 1
  generalize s.reverse = r
  induction r with
  | nil => rfl
  | cons x s ih =>
    simp only [List.dropWhile_cons]
    split
    · exact ih
    · next h => rw [List.dropWhile_cons, if_neg h]

theorem trim_idem (s : Str) : trim (trim s) = trim s := by
  show trim (trimEnd (trimStart s)) = _
  rw [trim_trimEnd, trim_trimStart]

/-- C37 as stated, for all blank hints (also empty ones) and all texts: the comment that is written for a comment has
a text of the same kind, and writing a comment with that text changes nothing. -/
theorem C37_trimming_twice (c : Config)
    (hh : ∀ o, o = .hintBeforeOnelineCommentText ∨ o = .hintBeforeMultilineCommentText ∨ o = .hintAfterMultilineCommentText →
      ∀ p, c.str o = some p → Blank p)
    (hr : c.bool .removeComments ≠ some true) (e : Elem) (hc : e.isComment = true) :
    ∃ e', e'.isComment = true ∧ ctokText c (commentTok e) = e'.text ∧
      ctokText c (commentTok e') = ctokText c (commentTok e) := by
  cases e with
  | tok => cases hc
  | line s =>
    simp only [commentTok, ctokText, if_neg hr]
    cases ho : c.str .hintBeforeOnelineCommentText with
    | none => exact ⟨.line s, rfl, by simp [Elem.text], by simp [commentTok, ctokText, hr, ho]⟩
    | some p =>
      have h2 := hh _ (.inl rfl) p ho
      by_cases ht : trimStart s = []
      · refine ⟨.line [], rfl, by simp [ht, Elem.text], ?_⟩
        simp [commentTok, ctokText, hr, ho, ht]
        simp [trimStart]
      · refine ⟨.line (p ++ trimStart s), rfl, by simp [ht, Elem.text], ?_⟩
        simp [commentTok, ctokText, hr, ho, ht, trimStart_idem h2]
  | long n s =>
    simp only [commentTok, ctokText, if_neg hr]
    cases ho : c.str .hintBeforeMultilineCommentText with
    | none =>
      cases hq : c.str .hintAfterMultilineCommentText with
      | none => exact ⟨.long n s, rfl, by simp [Elem.text, opener, closer], by simp [commentTok, ctokText, hr, ho, hq]⟩
      | some q =>
        have h2 := hh _ (.inr (.inr rfl)) q hq
        exact ⟨.long n (trimEnd s ++ q), rfl, by simp [Elem.text, opener, closer],
          by simp [commentTok, ctokText, hr, ho, hq, trimEnd_idem h2]⟩
    | some p =>
      have hp := hh _ (.inr (.inl rfl)) p ho
      cases hq : c.str .hintAfterMultilineCommentText with
      | none =>
        exact ⟨.long n (p ++ trimStart s), rfl, by simp [Elem.text, opener, closer],
          by simp [commentTok, ctokText, hr, ho, hq, trimStart_idem hp]⟩
      | some q =>
        have h2 := hh _ (.inr (.inr rfl)) q hq
        refine ⟨.long n (p ++ (trim s ++ q)), rfl, by simp [Elem.text, opener, closer], ?_⟩
        simp [commentTok, ctokText, hr, ho, hq, trim_padL (.of_blank hp), trim_padR (.of_blank h2), trim_idem]

/-- C37 with reading back. The comment that is written for a comment (with the comment text options set to blank texts, not empty
where C04 needs it) is a comment of the same kind, is read as such, and is written without further change. -/
theorem C37_comment_text_stable (c : Config) (hh : BlankHints c) (hr : c.bool .removeComments ≠ some true)
    (e : Elem) (hc : e.isComment = true) (he : e.Ok) :
    ∃ e', ctokText c (commentTok e) = e'.text ∧ e'.isComment = true ∧ e'.Ok ∧
      ctokText c (commentTok e') = ctokText c (commentTok e) := by
  cases e with
  | tok => cases hc
  | line s =>
    simp only [commentTok, ctokText, if_neg hr]
    cases ho : c.str .hintBeforeOnelineCommentText with
    | none => exact ⟨.line s, by simp [Elem.text], rfl, he, by simp [commentTok, ctokText, hr, ho]⟩
    | some p =>
      obtain ⟨h1, h2, h3⟩ := hh.oneline p ho
      by_cases ht : trimStart s = []
      · refine ⟨.line [], by simp [ht, Elem.text], rfl, ⟨by simp, by simp [opener]⟩, ?_⟩
        simp [commentTok, ctokText, hr, ho, ht]
        simp [trimStart]
      · refine ⟨.line (p ++ trimStart s), by simp [ht, Elem.text], rfl, LineText.pad he h2 h1 h3, ?_⟩
        simp [commentTok, ctokText, hr, ho, ht, trimStart_idem h2]
  | long n s =>
    simp only [commentTok, ctokText, if_neg hr]
    cases ho : c.str .hintBeforeMultilineCommentText with
    | none =>
      cases hq : c.str .hintAfterMultilineCommentText with
      | none => exact ⟨.long n s, by simp [Elem.text, opener, closer], rfl, he, by simp [commentTok, ctokText, hr, ho, hq]⟩
      | some q =>
        obtain ⟨h1, h2⟩ := hh.multiAfter q hq
        exact ⟨.long n (trimEnd s ++ q), by simp [Elem.text, opener, closer], rfl, LongBody.trimEnd_pad (.of_blank h2) h1 he,
          by simp [commentTok, ctokText, hr, ho, hq, trimEnd_idem h2]⟩
    | some p =>
      have hp := hh.multiBefore p ho
      cases hq : c.str .hintAfterMultilineCommentText with
      | none =>
        exact ⟨.long n (p ++ trimStart s), by simp [Elem.text, opener, closer], rfl,
          LongBody.pad (.of_blank hp) (LongBody.trimStart he) (fun _ => rfl),
          by simp [commentTok, ctokText, hr, ho, hq, trimStart_idem hp]⟩
      | some q =>
        obtain ⟨h1, h2⟩ := hh.multiAfter q hq
        refine ⟨.long n (p ++ (trim s ++ q)), by simp [Elem.text, opener, closer], rfl, ?_, ?_⟩
        · refine LongBody.pad (.of_blank hp) ?_ (fun _ => rfl)
          exact LongBody.trimEnd_pad (.of_blank h2) h1 (LongBody.trimStart he)
        · simp [commentTok, ctokText, hr, ho, hq, trim_padL (.of_blank hp), trim_padR (.of_blank h2), trim_idem]

/-- Only the options for comment texts are set. -/
structure Spec.CommentTextOnly (c : Config) : Prop where
  bool : ∀ o, c.bool o = none
  num : ∀ o, c.num o = none
  str : ∀ o, o ≠ .hintBeforeOnelineCommentText → o ≠ .hintBeforeMultilineCommentText →
    o ≠ .hintAfterMultilineCommentText → c.str o = none
  range : c.lineRange = none

theorem comment_gap {e : Elem} (hc : e.isComment = true) (he : e.Ok) : Gap e.text := by
  cases e with
  | tok => cases hc
  | line s => exact .line s [] he .nil
  | long n s => have := Gap.long n s [] he .nil; simpa [Elem.text] using this

theorem comment_clex {e : Elem} (hc : e.isComment = true) (he : e.Ok) :
    clex e.text = some [⟨0, commentTok e, e.text.length⟩] := by
  cases e with
  | tok => cases hc
  | line s =>
    have hends := getCommentEnds_line 2 s [] he
    simp [clex, clexGo, Elem.text, clexStep, Chars.advance, hends, commentTok]
    omega
  | long n s =>
    have hends := getCommentEnds_long 2 n s [] he
    simp only [List.append_nil] at hends
    simp only [Elem.text, List.append_assoc, clex, clexGo, clexStep, Chars.advance, List.head?_cons, if_true, hends]
    simp [opener, closer, commentTok, clexGo, clexStep]
    omega

theorem comment_lex {e : Elem} (hc : e.isComment = true) (he : e.Ok) :
    lexLua e.text = some [⟨e.text.length, .eof, e.text.length⟩] := by
  have h := lexFrom_final (i := 0) (.inl (comment_gap hc he))
  simp only [Nat.zero_add] at h
  exact h

theorem substr_slice {a g b : Str} {l r : Nat} (hl : l = a.length) (hr : r = a.length + g.length) :
    substr (a ++ (g ++ b)) ⟨l, r⟩ (a ++ (g ++ b)) 0 = .ok g := by
  subst hl hr
  exact substr_src rfl

/-- The gap with the comment. -/
theorem commentHint_comment {c : Config} (hc : CommentTextOnly c) {e : Elem} (hk : e.isComment = true) (he : e.Ok) (lvl : Int) :
    commentHint ⟨e.text, none⟩ c lvl ⟨0, e.text.length⟩ [] [] = .ok (ctokText c (commentTok e)) := by
  have hs : ∀ i j : Nat, i = j → j = 0 ∨ j = e.text.length → substr e.text ⟨i, j⟩ e.text 0 = .ok [] := by
    rintro i j rfl (h | h)
    · have := substr_slice (a := []) (g := []) (b := e.text) (l := i) (r := i) (by simp [h]) (by simp [h])
      simpa using this
    · have := substr_slice (a := e.text) (g := []) (b := []) (l := i) (r := i) (by simp [h]) (by simp [h])
      simpa using this
  have hs1 : substr e.text ⟨0, e.text.length⟩ e.text 0 = .ok e.text := by
    have := substr_slice (a := []) (g := e.text) (b := []) (l := 0) (r := e.text.length) (by simp) (by simp)
    simpa using this
  have hfn : ctokFirstNewline c (commentTok e) = false := by
    cases e <;> simp [commentTok, ctokFirstNewline, hc.num]
  have hnl : (commentTok e).isComment = true := by cases e <;> first | rfl | cases hk
  simp only [commentHint, outOfRange, hs1, Res.bind_ok, parseComment, comment_clex hk he, cgroup, crunEnd, cvariant, crunStart, crunItems]
  simp [cchunkWrite, outOfRange, commentRange, spaceHint, hc.bool, CEnv.put, hs, cvariantWrite, hnl, ifNewLine, crunNewline, hfn, crunWrite,
    ctokWrite, crunRest, cvariantRest]
  have h1 : dropBytes 1 (' ' :: ctokText c (commentTok e)) = some (ctokText c (commentTok e)) := by
    cases ctokText c (commentTok e) <;> rfl
  simp [h1, commentBlockText, hc.str, hc.bool]

theorem lastIs (x : Str) (ch : Char) {y : Str} (h : y = x ++ [ch]) : y.getLast?.getD ' ' = ch := by
  subst h; simp

theorem format_comment {c : Config} (hc : CommentTextOnly c) {e : Elem} (hk : e.isComment = true) (he : e.Ok) :
    format c e.text = .ok (ctokText c (commentTok e)) := by
  have hp : parseLua e.text = some (.mk .chunk ⟨0, e.text.length⟩ [⟨0, e.text.length⟩, ⟨e.text.length, e.text.length⟩]
      [.mk .statementList ⟨e.text.length, e.text.length⟩ [] []]) := by
    simp [parseLua, comment_lex hk he, parseChunk, placeChunk]
  simp only [format, hp, formatTree, effectiveRange, hc.range, lineRangeToPosRange, Res.bind_ok, Res.pure_eq]
  have h1 := commentHint_comment hc hk he 0
  have h2 : commentHint ⟨e.text, none⟩ c 0 ⟨e.text.length, e.text.length⟩ [] (ctokText c (commentTok e)) = .ok (ctokText c (commentTok e)) := by
    have hlast : (ctokText c (commentTok e)).getLast?.getD ' ' = '\n' ∨ (ctokText c (commentTok e)).getLast?.getD ' ' = ']' := by
      cases e with
      | tok => cases hk
      | line s =>
        simp only [commentTok, ctokText, hc.bool]
        left
        split
        · next h => cases h
        · split
          · split
            · exact lastIs ['-', '-'] _ (by simp)
            · next p _ _ => exact lastIs (['-', '-'] ++ p ++ trimStart s) _ (by simp)
          · exact lastIs (['-', '-'] ++ s) _ (by simp)
      | long n s =>
        simp only [commentTok, ctokText, hc.bool]
        right
        split
        · next h => cases h
        · exact lastIs _ _ rfl
    generalize (ctokText c (commentTok e)) = f at hlast
    have hd : dropBytes 1 [f.getLast?.getD ' '] = some [] := by
      rcases hlast with h | h <;> rw [h] <;> rfl
    have hs : substr e.text ⟨e.text.length, e.text.length⟩ e.text 0 = .ok [] := by
      have := substr_slice (a := e.text) (g := []) (b := []) (l := e.text.length) (r := e.text.length) (by simp) (by simp)
      simpa using this
    have hs2 : substr e.text ⟨0, 0⟩ [] e.text.length = .ok [] := by
      have := substr_mid e.text (a := e.text) (x := []) (y := []) (w := []) (z := []) (by simp)
      simpa using this
    simp [commentHint, outOfRange, hs, parseComment, clex, clexGo, clexStep, cchunkWrite, commentRange, spaceHint, hc.bool, CEnv.put, hs2,
      cvariantWrite, hd, commentBlockText]
  simp [growRange, growRangeAll, annotate, annotateAll, annotateTag, writeTree, mkR, mkRs, writeW, Tag.leafText, Tag.checksRange,
    Tag.shape, armW, onelineCfg, Tag.isIf, Tag.isFuncBody, plainW, Tag.template, runAll, runFm, runEl, locAt, hintW, nlW, kidW, St.init, h1, h2, Tag.updatesRange, outOfRange, notContained,
    listW, Tag.seps, Tag.isPlainList, plainList, hc.bool, ifNewLine, updatePosRange]

/-- C37 for a run of the program: a source that consists of a comment, formatted with the options for comment
texts, is formatted to a text that formatting does not change. -/
theorem C37_formatting_comment_stable (c : Config) (hc : CommentTextOnly c) (hh : BlankHints c) (e : Elem)
    (hk : e.isComment = true) (he : e.Ok) : ∃ out, format c e.text = .ok out ∧ format c out = .ok out := by
  obtain ⟨e', h1, h2, h3, h4⟩ := C37_comment_text_stable c hh (by rw [hc.bool]; simp) e hk he
  refine ⟨_, format_comment hc hk he, ?_⟩
  rw [h1, format_comment hc h2 h3, h4, h1]

/-- With empty hints the comment that is written may be read as another kind of comment. -/
theorem C37_empty_hint_changes_the_kind :
    format (cfg [(L!"hint_before_oneline_comment_text", L!"")]) L!"-- [[ x\na = 1 -- ]]\n" = .ok L!"--[[ x\na = 1 --]]\n" := by
  decide +kernel

/-- A configuration with all three options. -/
def Spec.commentCfg : Config := cfg [(L!"hint_before_oneline_comment_text", L!" "),
  (L!"hint_before_multiline_comment_text", L!" "), (L!"hint_after_multiline_comment_text", L!" ")]

/-- A case that meets the hypotheses and in which the text does change. -/
example : CommentTextOnly commentCfg ∧ BlankHints commentCfg ∧ (Elem.long 1 L!"x  ").isComment = true ∧
    (Elem.long 1 L!"x  ").Ok ∧ ctokText commentCfg (commentTok (.long 1 L!"x  ")) = L!"--[=[ x ]=]" := by
  refine ⟨⟨?_, ?_, ?_, rfl⟩, by constructor <;> simp +decide [commentCfg], rfl, ?_, by decide⟩
  · intro o; cases o <;> rfl
  · intro o; cases o <;> rfl
  · intro o; cases o <;> simp +decide [commentCfg]
  · show LongBody 1 false L!"x  "
    simp +decide [LongBody]

end Luafmt
