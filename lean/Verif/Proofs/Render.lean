import Verif.Proofs.GapAfter
import Verif.Proofs.KeptLines
import Verif.Proofs.Tile
import Verif.Proofs.LexAll
import Verif.Proofs.Adjacent

/-
The output as a sequence of tokens and gaps, next to the source.
-/
namespace Luafmt
open Spec

variable {c : Config} {NL : Prop}

/-- A text that does not end in a blank that is trimmed. -/
def Solid (s : Str) : Prop := s ≠ [] ∧ s.getLast? ≠ some ' ' ∧ s.getLast? ≠ some '\t'

theorem Solid.firm {p s : Str} (h : Solid s) : Firm (p ++ s) := by
  left
  obtain ⟨h1, h2, h3⟩ := h
  rw [List.getLast?_append]
  cases hs : s.getLast? with
  | none => exact absurd (List.getLast?_eq_none_iff.mp hs) h1
  | some y => simp [← hs, h1, h2, h3]

theorem Solid.lastOr {p s : Str} {x y : Char} (h : Solid s) : lastOr x (p ++ s) = lastOr y s := by
  rw [lastOr_append]
  unfold Luafmt.lastOr
  cases hs : s.getLast? with
  | none => exact absurd (List.getLast?_eq_none_iff.mp hs) h.1
  | some y => rfl

/-- A long string behind an opening square bracket: the one pair of tokens for which the printer has no hint
although they must not be joined. -/
def sqLong : Token → Token → Bool
  | .openSquare, .multiLineString _ _ => true
  | _, _ => false

/-- The token may follow the previous one directly (as far as the printer cares). -/
def PairOk (pv : Option Token) (t : Token) : Prop := ∀ p, pv = some p → (adj p t || sqLong p t) = true

/-- The text `K` between two tokens, for the source text `s`, separates them as far as the hints at this place do. -/
structure SepAt (c : Config) (pv : Option Token) (x : Char) (t : Token) (s K : Str) : Prop where
  head : HintedComments c → pv = some .minus → HeadOk s K
  pair : c.bool .replaceZeroSpacesWithHint = some true → x ≠ '\n' → K = [] → PairOk pv t ∨ s = []

/-- The tokens that may be printed for a token. -/
def TokNew (c : Config) (t t' : Token) : Prop :=
  t' = t ∨
  (∃ s, t = .charString s ∧ c.bool .convertCharstringToNormalstring = some true ∧ t' = .normalString (charToNormal s)) ∨
  (isFieldSep t = true ∧ isFieldSep t' = true ∧ c.str .fieldSeparator = some (spell t'))

theorem TokOut.new (hh : BlankHints c) {t : Token} {out : Str} (h : TokOut c t out) : ∃ t', TokNew c t t' ∧ out = spell t' := by
  rcases h with rfl | ⟨s, rfl, h1, rfl⟩ | ⟨h1, h2⟩
  · exact ⟨t, .inl rfl, rfl⟩
  · exact ⟨_, .inr (.inl ⟨s, rfl, h1, rfl⟩), rfl⟩
  · rcases hh.sep out h2 with rfl | rfl
    · exact ⟨.comma, .inr (.inr ⟨h1, rfl, h2⟩), rfl⟩
    · exact ⟨.semicolon, .inr (.inr ⟨h1, rfl, h2⟩), rfl⟩

/-- `Outs c A ts is ts' os`: with the tokens `ts` ahead, the items lead to the tokens `ts'`, and the tokens `os` are
written for them. A token and the one that is written for it are related by `A`. -/
inductive Outs (c : Config) (A : TokL → TokL → Prop) : List TokL → List Item → List TokL → List TokL → Prop
  | nil {ts : List TokL} : Outs c A ts [] ts []
  | gap {ts ts' os : List TokL} {loc : Loc} {h : Str} {is : List Item} : Outs c A ts is ts' os →
      Outs c A ts (.gap loc h :: is) ts' os
  | extra {ts ts' os : List TokL} {h : Str} {is : List Item} : Outs c A ts is ts' os → Outs c A ts (.extra h :: is) ts' os
  | lit {t t' : TokL} {ts ts' os : List TokL} {src : Str} {is : List Item} : TokNew c t.tok t'.tok → A t t' →
      Outs c A ts is ts' os → Outs c A (t :: ts) (.lit src (spell t'.tok) :: is) ts' (t' :: os)
  | none {ts ts' os : List TokL} {isF : Bool} {out : Str} {is : List Item} :
      out = [] ∨ TrailOk c isF [] false ∨ c.lineRange ≠ Option.none → Outs c A ts is ts' os → Outs c A ts (.trail isF [] out :: is) ts' os
  | add {ts ts' os : List TokL} {sep : TokL} {is : List Item} : isFieldSep sep.tok = true → TrailOk c true [] true →
      c.str .fieldSeparator = some (spell sep.tok) →
      Outs c A ts is ts' os → Outs c A ts (.trail true [] (spell sep.tok) :: is) ts' (sep :: os)
  | drop {t : TokL} {ts ts' os : List TokL} {out : Str} {is : List Item} : isFieldSep t.tok = true →
      TrailOk c true (spell t.tok) false → Outs c A ts is ts' os →
      Outs c A (t :: ts) (.trail true (spell t.tok) out :: is) ts' os
  | keep {t t' : TokL} {ts ts' os : List TokL} {is : List Item} : isFieldSep t.tok = true → TokNew c t.tok t'.tok →
      TrailOk c true (spell t.tok) true →
      Outs c A ts is ts' os → Outs c A (t :: ts) (.trail true (spell t.tok) (spell t'.tok) :: is) ts' (t' :: os)
  /-- with a line range a token may be copied -/
  | litRaw {t t' : TokL} {ts ts' os : List TokL} {src out : Str} {is : List Item} : c.lineRange ≠ Option.none → t'.tok = t.tok →
      A t t' → Outs c A ts is ts' os → Outs c A (t :: ts) (.lit src out :: is) ts' (t' :: os)
  | keepRaw {t t' : TokL} {ts ts' os : List TokL} {out : Str} {is : List Item} : c.lineRange ≠ Option.none →
      isFieldSep t.tok = true → t'.tok = t.tok →
      Outs c A ts is ts' os → Outs c A (t :: ts) (.trail true (spell t.tok) out :: is) ts' (t' :: os)

/-- `Render c NL N q T pv x sg esG ts os s R`: the text `R` is written at the position `q`, behind a text that ends with `x`
(and with the token `pv`), for the rest `s` of the source with the tokens `ts`; it has the tokens `os`. Before `s` the
source has the text `sg` with the comments `esG`, for which nothing has been written yet. `T`: the end of a field list has
just been passed. `N` is the length of the source. -/
inductive Render (c : Config) (NL : Prop) (N : Nat) :
    Nat → Bool → Option Token → Char → Str → List Elem → List TokL → List TokL → Str → Str → Prop
  | done {q : Nat} {T : Bool} {pv : Option Token} {x : Char} {sg s K : Str} {esG es es' : List Elem} {e : TokL} :
      e.tok = .eof → FinalGap s → FinalText s es → Wrote c NL x (sg ++ s) (esG ++ es) es' K →
      (HintedComments c → pv = some .minus → HeadOk (sg ++ s) K) → KeptNl c False (sg ++ s) K → Render c NL N q T pv x sg esG [e] [] s K
  | tok {q : Nat} {T : Bool} {pv : Option Token} {x : Char} {sg g u s K R : Str} {esG es es' : List Elem} {t : TokL}
      {ts : List TokL} {t' : TokL} {os : List TokL} :
      t.tok ≠ .eof → GapText g es → Gap g → u ≠ [] →
      ((u = spell t.tok ∧ Reads t.tok s.head?) ∨
        (∃ y e, t.tok = .sheBang y ∧ u = y ∧ s = [] ∧ TokOk t.tok ∧ ts = [e] ∧ e.tok = .eof)) →
      Wrote c NL x (sg ++ g) (esG ++ es) es' K → SepAt c pv x t.tok (sg ++ g) K → TokNew c t.tok t'.tok →
      t'.l = q + K.length ∧ t'.r = t'.l + (spell t'.tok).length →
      KeptNl c (x = '{' ∧ spell t.tok = ['}']) (sg ++ g) K ∧ t.l + (u.length + s.length) = N ∧ t.r + s.length = N →
      Render c NL N t'.r false (some t.tok) (lastOr ' ' (spell t'.tok)) [] [] ts os s R →
      Render c NL N q T pv x sg esG (t :: ts) (t' :: os) (g ++ (u ++ s)) (K ++ (spell t'.tok ++ R))
  | drop {q : Nat} {pv : Option Token} {x : Char} {sg g s R : Str} {esG es : List Elem} {t : TokL} {ts os : List TokL} :
      isFieldSep t.tok = true → pv ≠ some .minus → GapText g es → Gap g → AtCurly ts →
      c.bool .writeTrailingFieldSeparator = some false ∨ c.bool .forceSingleLineTable = some true →
      Render c NL N q true pv x (sg ++ g) (esG ++ es) ts os s R →
      Render c NL N q false pv x sg esG (t :: ts) os (g ++ (spell t.tok ++ s)) R
  | add {q : Nat} {pv : Option Token} {x : Char} {sg g s K R : Str} {esG es es' : List Elem} {ts : List TokL} {sep : TokL}
      {os : List TokL} :
      GapText g es → Gap g → AtCurly ts → c.bool .writeTrailingFieldSeparator = some true →
      isFieldSep sep.tok = true → c.str .fieldSeparator = some (spell sep.tok) →
      Wrote c NL x (sg ++ g) (esG ++ es) es' K → SepAt c pv x sep.tok (sg ++ g) K →
      sep.l = q + K.length ∧ sep.r = sep.l + (spell sep.tok).length →
      Render c NL N sep.r true (some sep.tok) (lastOr ' ' (spell sep.tok)) [] [] ts os s R →
      Render c NL N q false pv x sg esG ts (sep :: os) (g ++ s) (K ++ (spell sep.tok ++ R))

theorem Render.weaken {q : Nat} {pv : Option Token} {x : Char} {sg s R : Str} {esG : List Elem} {ts : List TokL} {os : List TokL}
    (h : Render c NL N q true pv x sg esG ts os s R) : Render c NL N q false pv x sg esG ts os s R := by
  cases h with
  | done h1 h2 h3 h4 h5 h6 => exact .done h1 h2 h3 h4 h5 h6
  | tok h1 h2 h3 h4 h5 h6 h7 h8 h9 h10 h11 => exact .tok h1 h2 h3 h4 h5 h6 h7 h8 h9 h10 h11

theorem FinalGap.prepend {a b : Str} (ha : Gap a) (hb : FinalGap b) : FinalGap (a ++ b) := by
  rcases hb with hb | ⟨d, t, rfl, hd, ht⟩
  · exact .inl (Gap.append ha hb)
  · exact .inr ⟨a ++ d, t, by simp, Gap.append ha hd, ht⟩

theorem GapText.append {a b : Str} {es fs : List Elem} (h : GapText a es) (h' : GapText b fs) :
    GapText (a ++ b) (es ++ fs) := ⟨h.1.append h'.1, Comments.append h.2 h'.2⟩

theorem FinalText.prepend {a b : Str} {es fs : List Elem} (h : GapText a es) (h' : FinalText b fs) :
    FinalText (a ++ b) (es ++ fs) := by
  refine ⟨?_, Comments.append h.2 h'.2⟩
  intro hc
  rw [List.append_assoc]
  refine h.1.append (h'.1 ?_)
  rintro ⟨n, hn⟩
  exact hc ⟨n, hn.trans (List.suffix_append a b)⟩

/-- A gap that is pending belongs to the source text. -/
theorem Render.prepend {q : Nat} {T : Bool} {pv : Option Token} {x : Char} {sg k s R : Str} {esG es : List Elem} {ts : List TokL} {os : List TokL} (hk : Gap k)
    (hg : GapText k es) (h : Render c NL N q T pv x (sg ++ k) (esG ++ es) ts os s R) : Render c NL N q T pv x sg esG ts os (k ++ s) R := by
  generalize h1 : sg ++ k = sg' at h
  generalize h2 : esG ++ es = esG' at h
  cases h with
  | done he hf ht hw hs hkp =>
    rw [← h1, List.append_assoc] at hs hkp
    rw [← h1, ← h2, List.append_assoc, List.append_assoc] at hw
    exact .done he (FinalGap.prepend hk hf) (FinalText.prepend hg ht) hw hs hkp
  | tok ht hgt hgap hne hu hw hs ho hl hkp hr =>
    rw [← h1, List.append_assoc] at hs hkp
    rw [← h1, ← h2, List.append_assoc, List.append_assoc] at hw
    rw [← List.append_assoc]
    exact .tok ht (hg.append hgt) (Gap.append hk hgap) hne hu hw hs ho hl hkp hr
  | drop hf hm hgt hgap hc ho hr =>
    rw [← h1, ← h2, List.append_assoc, List.append_assoc] at hr
    rw [← List.append_assoc]
    exact .drop hf hm (hg.append hgt) (Gap.append hk hgap) hc ho hr
  | add hgt hgap hc ho hf hs hw hp hl hr =>
    rw [← h1, List.append_assoc] at hp
    rw [← h1, ← h2, List.append_assoc, List.append_assoc] at hw
    rw [← List.append_assoc]
    exact .add (hg.append hgt) (Gap.append hk hgap) hc ho hf hs hw hp hl hr

theorem text_newline {es : List Elem} (h : Text es ['\n']) (hc : Comments es) : es = [] := by
  generalize hs : (['\n'] : Str) = s at h
  cases h with
  | nil => cases hs
  | @blank es ch s hb h =>
    cases hs
    generalize hs : ([] : Str) = s at h
    cases h with
    | nil => rfl
    | blank => cases hs
    | @elem e _ _ _ _ =>
      have := congrArg List.length hs
      have h1 := comment_last (hc e (by simp))
      simp at this
      rw [List.eq_nil_of_length_eq_zero (l := e.text) (by omega)] at h1
      rcases h1 with h1 | h1 <;> cases h1
  | @elem e es s he _ =>
    have := congrArg List.length hs
    have h1 := hc e (by simp)
    cases e with
    | tok _ => cases h1
    | line _ => simp [Elem.text] at this
    | long _ _ => simp [Elem.text, opener] at this

theorem Render.prependFinal {q : Nat} {T : Bool} {pv : Option Token} {x : Char} {sg k R : Str} {esG es : List Elem} {e : TokL} {os : List TokL} (he : e.tok = .eof)
    (hk : FinalGap k) (hg : FinalText k es) (h : Render c NL N q T pv x (sg ++ k) (esG ++ es) [e] os [] R) :
    Render c NL N q T pv x sg esG [e] os k R := by
  generalize h1 : sg ++ k = sg' at h
  generalize h2 : esG ++ es = esG' at h
  generalize h3 : ([] : Str) = s at h
  generalize h4 : [e] = ts at h
  cases h with
  | @done _ _ _ _ _ _ _ _ fs _ _ _ hf ht hw hs hkp =>
    subst h3
    cases h4
    have hfs : fs = [] := by
      refine text_newline (ht.1 ?_) ht.2
      rintro ⟨n, hn⟩
      have := hn.length_le
      simp at this
    subst hfs
    rw [← h1, List.append_nil] at hs hkp
    rw [← h1, ← h2, List.append_nil, List.append_nil] at hw
    exact .done he hk hg hw hs hkp
  | tok ht => cases h4; exact absurd he ht
  | drop hf => cases h4; rw [he] at hf; cases hf
  | add _ _ hc =>
    obtain ⟨u, us, hu, hc⟩ := hc
    rw [hu] at h4
    cases h4
    rw [he] at hc; cases hc

/-- The hints of an item may be inserted. -/
def Item.hintOk (NL : Prop) : Item → Prop
  | .gap _ h => HintOk NL h
  | .extra h => HintOk NL h
  | _ => True

theorem solid_sep (hh : BlankHints c) {out : Str} (h : c.str .fieldSeparator = some out) : Solid out := by
  rcases hh.sep out h with rfl | rfl <;> exact ⟨by decide, by decide, by decide⟩

theorem TokNew.solid (hh : BlankHints c) {t t' : Token} (h : TokNew c t t') (hs : Solid (spell t)) :
    Solid (spell t') := by
  rcases h with rfl | ⟨s, _, _, rfl⟩ | ⟨_, _, h⟩
  · exact hs
  · refine ⟨by simp [spell], ?_, ?_⟩ <;> simp [spell, List.getLast?_cons, List.getLast?_append]
  · exact solid_sep hh h

theorem tilesR_nil {a : Nat} {ts : List TokL} (h : TilesR [] a ts) : ∃ e, ts = [e] ∧ e.tok = .eof := by
  cases ts with
  | nil => exact h.elim
  | cons t ts =>
    rcases h with ⟨h1, rfl, _⟩ | ⟨g, u, s', _, h2, _, _, _, h6, _⟩
    · exact ⟨t, rfl, h1⟩
    · have := congrArg List.length h2
      simp at this
      exact absurd (List.eq_nil_of_length_eq_zero (by omega)) h6

theorem tiles_pos {s : Str} {t : TokL} {ts : List TokL} (h : TilesR s t.l (t :: ts)) :
    (t.tok = .eof ∧ ts = [] ∧ s = []) ∨
    (∃ u s', t.tok ≠ .eof ∧ s = u ++ s' ∧ t.r = t.l + u.length ∧ u ≠ [] ∧
      ((u = spell t.tok ∧ Reads t.tok s'.head?) ∨
        (∃ x e, t.tok = .sheBang x ∧ u = x ∧ s' = [] ∧ TokOk t.tok ∧ ts = [e] ∧ e.tok = .eof)) ∧ TilesR s' t.r ts) := by
  rcases h with ⟨h1, h2, _, h4, _⟩ | ⟨g, u, s', h1, h2, _, h4, h5, h6, h7, h8⟩
  · exact .inl ⟨h1, h2, List.eq_nil_of_length_eq_zero (by omega)⟩
  · have : g = [] := List.eq_nil_of_length_eq_zero (by omega)
    subst this
    refine .inr ⟨u, s', h1, h2, h5, h6, ?_, h8⟩
    rcases h7 with h7 | ⟨x, h7, h9, rfl, h10⟩
    · exact .inl h7
    · obtain ⟨e, h11, h12⟩ := tilesR_nil h8
      exact .inr ⟨x, e, h7, h9, rfl, h10, h11, h12⟩

/-- The hints between two tokens that must not be joined are not empty; `B`: each gap since `pv` has one or no width. Two
field lists do not end at the same place; `T`: one has just ended. -/
def Seps : Bool → Option Token → Bool → List Item → List TokL → Prop
  | T, pv, B, .gap loc h :: is, ts => Seps T pv (B && (loc.l == loc.r || !h.isEmpty)) is ts
  | T, pv, B, .extra _ :: is, ts => Seps T pv B is ts
  | _, pv, B, .lit _ _ :: is, t :: ts => (B = true ∨ PairOk pv t.tok) ∧ Seps false (some t.tok) true is ts
  | _, _, _, .lit _ _ :: _, [] => True
  | T, pv, B, .trail false _ _ :: is, ts => Seps T pv B is ts
  | T, pv, B, .trail true [] _ :: is, ts => T = false ∧ Seps true pv B is ts ∧
      ∀ sep, isFieldSep sep = true → Seps true (some sep) true is ts
  | T, pv, B, .trail true (_ :: _) _ :: is, t :: ts => T = false ∧ pv ≠ some .minus ∧ Seps true pv B is ts ∧
      Seps true (some t.tok) true is ts
  | _, _, _, .trail true (_ :: _) _ :: _, [] => True
  | _, _, _, [], _ => True

def isSheBang : Token → Bool
  | .sheBang _ => true
  | _ => false

/-- The blanks `H` between two tokens are as they should be (the hint of tables being `w`). -/
def spaceB (w : Str) (p t : Token) (H : Str) : Bool :=
  if p = .openCurly ∨ t = .closeCurly then H == w
  else if isSheBang p = true then H == []
  else match spacing p t with
    | some s => H == s
    | none => H == [] || H == [' ']

/-- The blanks `H` before a token behind the token `pw`, or at the beginning, are as they should be. -/
def SpaceIn (c : Config) (pw : Option Token) (t : Token) (H : Str) : Prop :=
  match pw with
  | some p => spaceB (tableHint c) p t H = true
  | none => H = []

/-- The same; before `{` the hint of tables may follow. -/
def SpaceOk (c : Config) (pw : Option Token) (t : Token) (H : Str) : Prop :=
  ∃ b, SpaceIn c pw t b ∧ (H = b ∨ t = .openCurly ∧ H = b ++ tableHint c)

/-- The hints between two tokens that are written are as they should be: behind `pw` there are the hints `H`. -/
def Spaces (c : Config) : Option Token → Str → List Item → List TokL → Prop
  | pw, H, .gap loc h :: is, ts => ((H = [] ∨ loc.l = loc.r) ∧ Short c H ∧ Short c h) ∧ Spaces c pw (H ++ h) is ts
  | pw, H, .extra h :: is, ts => (Short c H ∧ Short c h) ∧ Spaces c pw (H ++ h) is ts
  | pw, H, .lit _ out :: is, t :: ts => ∀ t', TokNew c t.tok t' → out = spell t' →
      SpaceOk c pw t' H ∧ Spaces c (some t') [] is ts
  | _, _, .lit _ _ :: _, [] => True
  | pw, H, .trail false _ _ :: is, ts => Spaces c pw H is ts
  | pw, H, .trail true [] _ :: is, ts => Spaces c pw H is ts ∧
      ∀ sep, isFieldSep sep = true → SpaceOk c pw sep H ∧ Spaces c (some sep) [] is ts
  | pw, H, .trail true (_ :: _) _ :: is, _ :: ts => Spaces c pw H is ts ∧
      ∀ sep, isFieldSep sep = true → SpaceOk c pw sep H ∧ Spaces c (some sep) [] is ts
  | _, _, .trail true (_ :: _) _ :: _, [] => True
  | _, H, [], _ => H = []

/-- Nothing is written behind a comment. -/
def Bare (S : List Str) : Prop := ∀ e ∈ S, e = []

/-- Where a comment is written in a gap, the hints that follow up to the next token are none, or the hint `w` of tables
before a brace: `S` has the hints behind each of the gaps so far. -/
def Tails (w : Str) : List Str → List Item → Prop
  | S, .gap loc h :: is => Tails w ([] :: S.map (· ++ h)) is ∨ (¬ NoEnd is ∧ loc.l = loc.r ∧ h = []) ∧ Tails w S is
  | S, .extra h :: is => Tails w ([] :: S.map (· ++ h)) is
  | S, .lit _ out :: is => (∀ e ∈ S, e = [] ∨ (out = ['{'] ∨ out = ['}']) ∧ e = w) ∧ Tails w [] is
  | S, .trail false _ _ :: is => Tails w S is
  | S, .trail true _ _ :: is => Bare S ∧ Tails w S is ∧ Tails w [] is
  | S, [] => Bare S

/-- Behind the last comment of `K`, on its line, there is the hint for it, and behind a newline there is indentation; before a
brace the hint of tables may follow. -/
def After (c : Config) (u : Str) (K : Str) : Prop :=
  (∀ a b, K = a ++ ']' :: b → ']' ∉ b → '\n' ∉ b →
    b = afterComment c ∨ (u = ['{'] ∨ u = ['}']) ∧ b = afterComment c ++ tableHint c) ∧
  (LineHints c → ∀ a b, K = a ++ '\n' :: b → '\n' ∉ b → ']' ∉ b →
    ∃ k, b = indentation c k ∨ (u = ['{'] ∨ u = ['}']) ∧ b = indentation c k ++ tableHint c)

theorem TailIn.after {W : Prop} {S : List Str} {u K : Str} (h : TailIn W c S K)
    (hS : ∀ e ∈ S, e = [] ∨ (u = ['{'] ∨ u = ['}']) ∧ e = tableHint c) (hW : ¬ W) (hr : Regular c) : After c u K := by
  refine ⟨fun a b e hb hn => ?_, fun hL a b e hb hn => ?_⟩
  · obtain ⟨x, hx, rfl⟩ := (h hW hr).1 a b e hb hn
    rcases hS x hx with rfl | ⟨hu, rfl⟩
    · left; simp
    · exact .inr ⟨hu, rfl⟩
  · obtain ⟨x, hx, k, rfl⟩ := (h hW hr).2 hL a b e hb hn
    refine ⟨k, ?_⟩
    rcases hS x hx with rfl | ⟨hu, rfl⟩
    · left; simp
    · exact .inr ⟨hu, rfl⟩

theorem tails_gap {W : Prop} {w : Str} {S : List Str} {loc : Loc} {h : Str} {is : List Item} {P g g' : Str}
    (hT : Regular c → Tails w S (.gap loc h :: is)) (hg : TailIn W c S g) (hg' : TailIn W c ([] :: S.map (· ++ h)) g')
    (hq : W ∨ Quiet loc h is (P ++ g) (P ++ g')) : ∃ S', (Regular c → Tails w S' is) ∧ TailIn W c S' g' := by
  by_cases hr : Regular c
  · rcases hT hr with hT | ⟨⟨h1, h2, h3⟩, hT⟩
    · exact ⟨_, fun _ => hT, hg'⟩
    · refine ⟨S, fun _ => hT, fun hW => ?_⟩
      have := List.append_cancel_left (hq.resolve_left hW h1 h2 h3)
      rw [this]
      exact hg hW
  · exact ⟨[], fun h => absurd h hr, fun _ h => absurd h hr⟩

theorem Bare.any {S : List Str} {u w : Str} (h : Bare S) : ∀ e ∈ S, e = [] ∨ (u = ['{'] ∨ u = ['}']) ∧ e = w :=
  fun e he => .inl (h e he)

/-- The tokens `os` of the text `R`, which is written at the position `q` behind `x` and the token `pw`, have the blanks
between them that they should have. What is behind comments and newlines is only said unless `W`. -/
inductive Spaced (W : Prop) (c : Config) : Option Token → Nat → Char → List TokL → Str → Prop
  | done {pw : Option Token} {q : Nat} {x : Char} {K : Str} : Exact c x [] K → (q ≠ 0 → Start c x K) →
      (CommentLines c → Lined c [x] K) → (¬ W → Regular c → After c [] K) → Spaced W c pw q x [] K
  | tok {pw : Option Token} {q : Nat} {x : Char} {t : TokL} {os : List TokL} {K R : Str} :
      (Regular c → x ≠ '\n' → '\n' ∉ K → '-' ∉ K → SpaceOk c pw t.tok K) →
      (q ≠ 0 → Start c x K) → (CommentLines c → Lined c [x] K) → (¬ W → Regular c → After c (spell t.tok) K) → t.l = q + K.length ∧ t.r = t.l + (spell t.tok).length →
      Spaced W c (some t.tok) t.r (lastOr ' ' (spell t.tok)) os R → Spaced W c pw q x (t :: os) (K ++ (spell t.tok ++ R))

theorem ne_nil_of_length {P : Str} (h : P.length ≠ 0) : P ≠ [] := by
  rintro rfl
  exact h rfl

theorem Exact.nil {x : Char} : Exact c x [] [] := fun _ _ _ _ => rfl

theorem TokNew.fieldSep {t t' : Token} (h : TokNew c t t') (hf : isFieldSep t = true) : isFieldSep t' = true := by
  rcases h with rfl | ⟨s, rfl, _⟩ | ⟨_, h, _⟩
  · exact hf
  · cases hf
  · exact h

theorem adj_sep {p t : Token} (h : isFieldSep t = true) : adj p t = true := by
  rcases isFieldSep_cases h with rfl | rfl
  · have := joinsCh_safe p (c := ',') (by unfold SafeCh; simp)
    show (!joinsCh p ',') = true; rw [this]; rfl
  · have := joinsCh_safe p (c := ';') (by unfold SafeCh; simp)
    show (!joinsCh p ';') = true; rw [this]; rfl

theorem Sepd.at {pv : Option Token} {x : Char} {B : Bool} {t : Token} {s K : Str} (h : Sepd c x (pv = some .minus) B s K)
    (hp : B = true ∨ PairOk pv t) : SepAt c pv x t s K := by
  refine ⟨h.head, fun hz hx hk => ?_⟩
  rcases hp with hp | hp
  · exact (h.ne hz hx hp).elim (fun h => absurd hk h) .inr
  · exact .inl hp

theorem Tile.not_past {a b : Nat} {ts ts' : List TokL} {is : List Item} (h : Tile c a ts is b ts') (hn : ts = []) :
    ts' = [] := by
  induction h with
  | nil => exact hn
  | here _ ih => exact ih hn
  | extra _ ih => exact ih hn
  | trailNone _ _ ih => exact ih hn
  | gap => cases hn
  | lit => cases hn
  | trail => cases hn

/-- The marks of a token hold for the token that is written for it. -/
def Marked (c : Config) (ms : List (Nat × Mk)) (r : Str) (t t' : TokL) : Prop :=
  ∀ m, (t.l, m) ∈ ms → m.Holds c (r.take t'.l) (r.take t'.r)

theorem Outs.mono {A B : TokL → TokL → Prop} {ts ts' os : List TokL} {is : List Item} (h : Outs c A ts is ts' os) :
    (∀ t ∈ ts, ∀ t', A t t' → B t t') → Outs c B ts is ts' os := by
  induction h with
  | nil => intro _; exact .nil
  | gap _ ih => intro hm; exact .gap (ih hm)
  | extra _ ih => intro hm; exact .extra (ih hm)
  | lit e1 e2 _ ih => intro hm; exact .lit e1 (hm _ (by simp) _ e2) (ih fun t ht => hm t (by simp [ht]))
  | none e _ ih => intro hm; exact .none e (ih hm)
  | add e1 e2 e3 _ ih => intro hm; exact .add e1 e2 e3 (ih hm)
  | drop e1 e2 _ ih => intro hm; exact .drop e1 e2 (ih fun t ht => hm t (by simp [ht]))
  | keep e1 e2 e3 _ ih => intro hm; exact .keep e1 e2 e3 (ih fun t ht => hm t (by simp [ht]))
  | litRaw e1 e2 e3 _ ih => intro hm; exact .litRaw e1 e2 (hm _ (by simp) _ e3) (ih fun t ht => hm t (by simp [ht]))
  | keepRaw e1 e2 e3 _ ih => intro hm; exact .keepRaw e1 e2 e3 (ih fun t ht => hm t (by simp [ht]))

theorem tilesR_ge : ∀ {ts : List TokL} {s : Str} {a : Nat}, TilesR s a ts → ∀ t ∈ ts, a ≤ t.l
  | [], _, _, h => h.elim
  | t :: ts, s, a, h => by
    rcases h with ⟨_, rfl, _, h, _⟩ | ⟨g, u, s', _, _, _, h1, h2, _, _, h3⟩
    · intro t' ht
      simp only [List.mem_cons, List.not_mem_nil, or_false] at ht
      subst ht
      omega
    · intro t' ht
      rcases List.mem_cons.mp ht with rfl | ht
      · omega
      · have := tilesR_ge h3 t' ht
        omega

theorem mem_marksAt {p : Option Nat} {ls : List Mk} {m : Nat × Mk} (h : m ∈ marksAt p ls) : p = some m.1 ∧ m.2 ∈ ls := by
  cases p with
  | none => cases h
  | some p =>
    simp only [marksAt, List.mem_map] at h
    obtain ⟨l, hl, rfl⟩ := h
    exact ⟨rfl, hl⟩

theorem braces_of {env : Env} {a b : Nat} {ts ts' : List TokL} {is : List Item} (ht : Tile c a ts is b ts') {x : Char} {P g f s : Str}
    {es es' : List Elem} (hw : Wrote c NL x s es es' g) {loc : Loc} {h : Str} (hs : StepAt env c loc h is (P ++ g) f) :
    PlainStep env c loc h (P ++ g) f ∨ Braces P ts := by
  refine hs.2.imp id ?_
  rintro ⟨h1, is', rfl⟩
  cases ht with
  | lit h2 =>
    refine ⟨?_, _, _, rfl, h2.symm⟩
    have := text_no_brace hw.text hw.com
    rw [List.getLast?_append] at h1
    cases hg : g.getLast? with
    | none =>
      rw [hg] at h1
      simp only [Option.none_or] at h1
      rw [lastOr, h1]
      rfl
    | some y =>
      rw [hg] at h1 this
      exact absurd h1 this

/-- The printed text renders the source. -/
theorem render_of_emits {W : Prop} (hh : BlankHints c) (ha : Allow c NL) {env : Env} (hr : env.posRange = none ∨ Ranged c NL env)
    (hG : Ranged c NL env → ∀ d k, env.buf = d ++ k → FinalGap k → Gap k)
    {a b : Nat} {ts ts' : List TokL} {is : List Item} (ht : Tile c a ts is b ts') :
    ∀ {T : Bool} {pv : Option Token} {B : Bool} {p : Option Nat} {ms : List (Nat × Mk)} {pre s P g sg r : Str} {esG esG' : List Elem} {pw : Option Token} {H : Str} {S : List Str}, env.buf = pre ++ s →
    pre.length = a → TilesR s a ts →
    (∃ e, ts' = [e] ∧ e.tok = .eof ∧ b = e.l) → (∀ t ∈ ts, t.tok ≠ .eof → Solid (spell t.tok)) →
    (∀ i ∈ is, i.hintOk NL ∧ (SameLines c → i.hintOk False)) → Seps T pv B is ts → Sepd c (lastOr ' ' P) (pv = some .minus) B sg g →
    (pv = some .minus ∨ KeepsLines c → sg = [] ∨ ∃ t us, ts = t :: us ∧ t.l = a) → Firm P → Wrote c NL (lastOr ' ' P) sg esG esG' g →
    LEmits W env c p is ms (P ++ g) r → p = none ∨ p = some a → (Regular c → Spaces c pw H is ts) → Exact c (lastOr ' ' P) H g →
    (P.length ≠ 0 → Start c (lastOr ' ' P) g) → KeptNl c (Braces P ts) sg g →
    (Regular c → Tails (tableHint c) S is) → TailIn W c S g →
    ∃ R os, r = P ++ R ∧ (∀ m ∈ ms, a ≤ m.1) ∧ Spaced W c pw P.length (lastOr ' ' P) os R ∧
      Outs c (Marked c ms r) ts is ts' os ∧ Render c NL env.buf.length P.length T pv (lastOr ' ' P) sg esG ts os s R := by
  have hr' : env.posRange = none ∨ c.lineRange ≠ none := hr.imp id (·.line)
  induction ht with
  | @nil a ts =>
    intro T pv B p ms pre s P g sg r esG esG' pw H S hb hl htl he hso hi hS hD hM hP hw hE hp hSp hX hN hKp hTl hTi
    obtain ⟨e, rfl, heo, hbe⟩ := he
    subst hbe
    rcases tiles_pos htl with ⟨_, _, rfl⟩ | ⟨_, _, h1, _⟩
    · cases hE with
      | nil =>
        refine ⟨g, [], rfl, fun _ h => (by cases h), .done (fun h1 h2 h3 h4 => by rw [hX h1 h2 h3 h4]; exact hSp h1) hN hw.own (fun hW h => hTi.after (hTl h).any hW h), .nil, .done heo (.inl .nil) (es := []) ⟨fun _ => ?_, fun _ h => (by cases h)⟩ (by simpa using hw) (by simpa using hD.head) (by simpa using hKp.mono fun ⟨_, t, us, h1, h2⟩ => by cases h1; rw [heo] at h2; cases h2)⟩
        exact .blank (.inr (.inl rfl)) .nil
    · exact absurd heo h1
  | @here a b ts ts' h is hT ih =>
    intro T pv B p ms pre s P g sg r esG esG' pw H S hb hl htl he hso hi hS hD hM hP hw hE hp hSp hX hN hKp hTl hTi
    cases hE with
    | gap hg hq hE =>
      have ⟨hx, hx'⟩ := hi (.gap ⟨a, a⟩ h) (by simp)
      obtain ⟨g', fs', rfl, w⟩ := gapStep_wrote hh ha hr (a := pre) (k := []) (b := s) (by simpa using hb) (.inl .nil)
        (fun _ => .nil) hl.symm (by simpa using hl.symm) hx hP hw hg.1
      have hD' := gapStep_sepd hh ha hr (a := pre) (k := []) (b := s) (B' := B && (a == a || !h.isEmpty))
        (by simpa using hb) (.inl .nil)
        (fun _ => .nil) hl.symm (by simpa using hl.symm) hx hP (fun hb => ⟨by simp at hb; exact hb, .inl rfl⟩) (fun _ => .inr rfl) hD hg.1
      have hX' := gapStep_exact hr' hP hX hg.1
      have hN' := fun e => gapStep_start hh hr' hP (ne_nil_of_length e) hX (hN e) (fun h => (hSp h).1) hg.1
      have hKp' := gapStep_kept hh hr' (a := pre) (k := []) (b := s) (by simpa using hb) (.inl .nil) hl.symm (by simpa using hl.symm)
        (fun _ => .inr rfl) hKp (fun hc h => (hx' hc).nl h) hg.1 (braces_of hT hw hg)
      obtain ⟨S', hTl', hTi'⟩ := tails_gap hTl hTi (gapStep_tail hh hr' hx.blank (fun h => (hSp h).1.2.2) hTi hg.1) hq
      rw [List.append_nil] at hD' hKp'
      rw [List.append_nil, show gapElems [] = [] from rfl, List.append_nil] at w
      obtain ⟨R, os, e1, eg, es, e0, e2⟩ := ih hb hl htl he hso (fun i h => hi i (by simp [h])) hS hD' hM hP w hE (.inr rfl) (fun h => (hSp h).2) hX' hN' hKp' hTl' hTi'
      exact ⟨R, os, e1, eg, es, .gap e0, e2⟩
    | @gapRaw _ _ _ _ _ s0 _ _ hr' hs' hE =>
      have := substr_src (src := env.buf) (a := pre) (g := []) (b := s) (by simpa using hb)
      simp only [List.length_nil, Nat.add_zero, hl] at this
      rw [this] at hs'
      cases hs'
      rw [List.append_nil] at hE
      obtain ⟨R, os, e1, eg, es, e0, e2⟩ := ih (B := B && (a == a || !h.isEmpty)) hb hl htl he hso (fun i h => hi i (by simp [h])) hS
        (by simpa using hD) hM hP hw hE (.inr rfl) (fun h => absurd h.range (hr.resolve_left hr').line) (H := H)
        (fun h => absurd h.range (hr.resolve_left hr').line) (fun _ h => absurd h.range (hr.resolve_left hr').line) hKp
        (S := []) (fun h => absurd h.range (hr.resolve_left hr').line) (fun _ h => absurd h.range (hr.resolve_left hr').line)
      exact ⟨R, os, e1, eg, es, .gap e0, e2⟩
  | @extra a b ts ts' h is _ ih =>
    intro T pv B p ms pre s P g sg r esG esG' pw H S hb hl htl he hso hi hS hD hM hP hw hE hp hSp hX hN hKp hTl hTi
    cases hE with
    | extra hg hE =>
      have ⟨hx, hx'⟩ := hi (.extra h) (by simp)
      obtain ⟨g', fs', rfl, w⟩ := gapStep_wrote hh ha hr (a := []) (k := []) (b := env.buf) (by simp) (.inl .nil)
        (fun _ => .nil) rfl rfl hx hP hw hg.gapStep
      have hD' := gapStep_sepd hh ha hr (a := []) (k := []) (b := env.buf) (B' := B) (by simp) (.inl .nil)
        (fun _ => .nil) rfl rfl hx hP (fun hb => ⟨hb, .inl rfl⟩) (fun _ => .inr rfl) hD hg.gapStep
      have hX' := gapStep_exact hr' hP hX hg.gapStep
      have hN' := fun e => gapStep_start hh hr' hP (ne_nil_of_length e) hX (hN e) (fun h => ⟨.inr rfl, (hSp h).1⟩) hg.gapStep
      have hKp' := gapStep_kept hh hr' (a := []) (k := []) (b := env.buf) (by simp) (.inl .nil) rfl rfl (fun _ => .inr rfl) hKp (fun hc h => (hx' hc).nl h) hg.gapStep (.inl hg)
      have hTi' := gapStep_tail hh hr' hx.blank (fun h => (hSp h).1.2) hTi hg.gapStep
      rw [List.append_nil] at hD' hKp'
      rw [List.append_nil, show gapElems [] = [] from rfl, List.append_nil] at w
      obtain ⟨R, os, e1, eg, es, e0, e2⟩ := ih hb hl htl he hso (fun i h => hi i (by simp [h])) hS hD' hM hP w hE hp (fun h => (hSp h).2) hX' hN' hKp' hTl hTi'
      exact ⟨R, os, e1, eg, es, .extra e0, e2⟩
    | extraRaw _ hE =>
      obtain ⟨R, os, e1, eg, es, e0, e2⟩ := ih hb hl htl he hso (fun i h => hi i (by simp [h])) hS hD hM hP hw hE hp (fun h => absurd h.range (hr.resolve_left ‹_›).line) (H := H)
        (fun h => absurd h.range (hr.resolve_left ‹_›).line) (fun _ h => absurd h.range (hr.resolve_left ‹_›).line) hKp
        (S := []) (fun h => absurd h.range (hr.resolve_left ‹_›).line) (fun _ h => absurd h.range (hr.resolve_left ‹_›).line)
      exact ⟨R, os, e1, eg, es, .extra e0, e2⟩
  | @gap a b t ts ts' h is hT ih =>
    intro T pv B p ms pre s P g sg r esG esG' pw H S hb hl htl he hso hi hS hD hM hP hw hE hp hSp hX hN hKp hTl hTi
    have hB : ∀ {k : Str}, t.l = a + k.length → (B && (a == t.l || !h.isEmpty)) = true → B = true ∧ (k = [] ∨ h ≠ []) := by
      intro k hk hb
      simp only [Bool.and_eq_true, Bool.or_eq_true, beq_iff_eq, Bool.not_eq_true', List.isEmpty_eq_false_iff] at hb
      exact ⟨hb.1, hb.2.imp (fun h => List.eq_nil_of_length_eq_zero (by omega)) id⟩
    have hMk : ∀ {k : Str}, t.l = a + k.length → pv = some .minus ∨ KeepsLines c → sg = [] ∨ k = [] := by
      intro k hk hpm
      refine (hM hpm).imp id ?_
      rintro ⟨t', us, h1, h2⟩
      cases h1
      exact List.eq_nil_of_length_eq_zero (by omega)
    rcases htl with ⟨t1, rfl, t3, t4, t5⟩ | ⟨k, u, s', t1, rfl, t3, t4, t5, t6, t7, t8⟩
    · have hfin : Ranged c NL env → Gap s := fun hR => hG hR pre s hb t3
      have main : ∀ {g' : Str} {fs' : List Elem}, LEmits W env c (some t.l) is ms (P ++ g') r →
          Wrote c NL (lastOr ' ' P) (sg ++ s) (esG ++ gapElems s) (esG' ++ fs') g' →
          Sepd c (lastOr ' ' P) (pv = some .minus) (B && (a == t.l || !h.isEmpty)) (sg ++ s) g' →
          Exact c (lastOr ' ' P) (H ++ h) g' → (P.length ≠ 0 → Start c (lastOr ' ' P) g') → KeptNl c (Braces P [t]) (sg ++ s) g' →
          (∃ S', (Regular c → Tails (tableHint c) S' is) ∧ TailIn W c S' g') →
          ∃ R os, r = P ++ R ∧ (∀ m ∈ ms, a ≤ m.1) ∧ Spaced W c pw P.length (lastOr ' ' P) os R ∧ Outs c (Marked c ms r) [t] (.gap ⟨a, t.l⟩ h :: is) ts' os ∧
            Render c NL env.buf.length P.length T pv (lastOr ' ' P) sg esG [t] os s R := by
        intro g' fs' hE w hD' hX' hN' hKp' ⟨S', hTl', hTi'⟩
        obtain ⟨R, os, e1, eg, es, e0, e2⟩ := ih (pre := pre ++ s) (s := []) (by simpa using hb) (by simp [hl, t4])
          (.inl ⟨t1, rfl, .inl .nil, by simp, t5⟩) he hso (fun i h => hi i (by simp [h])) hS hD'
          (fun _ => .inr ⟨t, [], rfl, rfl⟩) hP w hE (.inr rfl) (fun h => (hSp h).2) hX' hN' hKp' hTl' hTi'
        exact ⟨R, os, e1, fun m hm => Nat.le_trans (by omega) (eg m hm), es, .gap e0, e2.prependFinal t1 t3 (gapElems_final t3)⟩
      cases hE with
      | gap hg hq hE =>
        have ⟨hx, hx'⟩ := hi (.gap ⟨a, t.l⟩ h) (by simp)
        obtain ⟨g', fs', rfl, w⟩ := gapStep_wrote hh ha hr (a := pre) (k := s) (b := []) (by simpa using hb) t3 hfin
          hl.symm (by rw [t4, hl]) hx hP hw hg.1
        have hD' := gapStep_sepd hh ha hr (a := pre) (k := s) (b := []) (by simpa using hb) t3 hfin
          hl.symm (by rw [t4, hl]) hx hP (hB t4) (fun h => hMk t4 (.inl h)) hD hg.1
        exact main hE w hD' (gapStep_exact hr' hP hX hg.1)
          (fun e => gapStep_start hh hr' hP (ne_nil_of_length e) hX (hN e) (fun h => (hSp h).1) hg.1)
          (gapStep_kept hh hr' (a := pre) (k := s) (b := []) (by simpa using hb) t3 hl.symm (by rw [t4, hl])
            (fun h => hMk t4 (.inr h)) hKp (fun hc h => (hx' hc).nl h) hg.1 (braces_of hT hw hg))
          (tails_gap hTl hTi (gapStep_tail hh hr' hx.blank (fun h => (hSp h).1.2.2) hTi hg.1) hq)
      | gapRaw hr' hs' hE =>
        have hR := hr.resolve_left hr'
        have := substr_src (src := env.buf) (a := pre) (g := s) (b := []) (by simpa using hb)
        rw [hl, ← t4] at this
        rw [this] at hs'
        cases hs'
        obtain ⟨k1, k2⟩ := gapElems_gap (hfin hR)
        rw [List.append_assoc] at hE
        exact main hE (hw.append (.copy hR.line hR.nl k1 k2)) (hD.copy (fun hb => (hB t4 hb).1) (fun h => hMk t4 (.inl h))) (fun h => absurd h.range hR.line) (fun _ h => absurd h.range hR.line)
          (.of_not fun h => absurd h.range hR.line) ⟨[], fun h => absurd h.range hR.line, fun _ h => absurd h.range hR.line⟩
    · have main : ∀ {g' : Str} {fs' : List Elem}, LEmits W env c (some t.l) is ms (P ++ g') r →
          Wrote c NL (lastOr ' ' P) (sg ++ k) (esG ++ gapElems k) (esG' ++ fs') g' →
          Sepd c (lastOr ' ' P) (pv = some .minus) (B && (a == t.l || !h.isEmpty)) (sg ++ k) g' →
          Exact c (lastOr ' ' P) (H ++ h) g' → (P.length ≠ 0 → Start c (lastOr ' ' P) g') → KeptNl c (Braces P (t :: ts)) (sg ++ k) g' →
          (∃ S', (Regular c → Tails (tableHint c) S' is) ∧ TailIn W c S' g') →
          ∃ R os, r = P ++ R ∧ (∀ m ∈ ms, a ≤ m.1) ∧ Spaced W c pw P.length (lastOr ' ' P) os R ∧ Outs c (Marked c ms r) (t :: ts) (.gap ⟨a, t.l⟩ h :: is) ts' os ∧
            Render c NL env.buf.length P.length T pv (lastOr ' ' P) sg esG (t :: ts) os (k ++ (u ++ s')) R := by
        intro g' fs' hE w hD' hX' hN' hKp' ⟨S', hTl', hTi'⟩
        obtain ⟨R, os, e1, eg, es, e0, e2⟩ := ih (pre := pre ++ k) (s := u ++ s') (by simpa using hb) (by simp [hl, t4])
          (.inr ⟨[], u, s', t1, rfl, .nil, by simp, t5, t6, t7, t8⟩) he hso (fun i h => hi i (by simp [h])) hS hD'
          (fun _ => .inr ⟨t, ts, rfl, rfl⟩) hP w hE (.inr rfl) (fun h => (hSp h).2) hX' hN' hKp' hTl' hTi'
        exact ⟨R, os, e1, fun m hm => Nat.le_trans (by omega) (eg m hm), es, .gap e0, e2.prepend t3 (gapElems_gap t3)⟩
      cases hE with
      | gap hg hq hE =>
        have ⟨hx, hx'⟩ := hi (.gap ⟨a, t.l⟩ h) (by simp)
        obtain ⟨g', fs', rfl, w⟩ := gapStep_wrote hh ha hr (a := pre) (k := k) (b := u ++ s') hb (.inl t3) (fun _ => t3)
          hl.symm (by rw [t4, hl]) hx hP hw hg.1
        have hD' := gapStep_sepd hh ha hr (a := pre) (k := k) (b := u ++ s') hb (.inl t3) (fun _ => t3)
          hl.symm (by rw [t4, hl]) hx hP (hB t4) (fun h => hMk t4 (.inl h)) hD hg.1
        exact main hE w hD' (gapStep_exact hr' hP hX hg.1)
          (fun e => gapStep_start hh hr' hP (ne_nil_of_length e) hX (hN e) (fun h => (hSp h).1) hg.1)
          (gapStep_kept hh hr' (a := pre) (k := k) (b := u ++ s') hb (.inl t3) hl.symm (by rw [t4, hl])
            (fun h => hMk t4 (.inr h)) hKp (fun hc h => (hx' hc).nl h) hg.1 (braces_of hT hw hg))
          (tails_gap hTl hTi (gapStep_tail hh hr' hx.blank (fun h => (hSp h).1.2.2) hTi hg.1) hq)
      | gapRaw hr' hs' hE =>
        have hR := hr.resolve_left hr'
        have := substr_src (src := env.buf) (a := pre) (g := k) (b := u ++ s') hb
        rw [hl, ← t4] at this
        rw [this] at hs'
        cases hs'
        obtain ⟨k1, k2⟩ := gapElems_gap t3
        rw [List.append_assoc] at hE
        exact main hE (hw.append (.copy hR.line hR.nl k1 k2)) (hD.copy (fun hb => (hB t4 hb).1) (fun h => hMk t4 (.inl h))) (fun h => absurd h.range hR.line) (fun _ h => absurd h.range hR.line)
          (.of_not fun h => absurd h.range hR.line) ⟨[], fun h => absurd h.range hR.line, fun _ h => absurd h.range hR.line⟩
  | @lit b t ts ts' src out is hsrc hout hT ih =>
    intro T pv B p ms pre s P g sg r esG esG' pw H S hb hl htl he hso hi hS hD hM hP hw hE hp hSp hX hN hKp hTl hTi
    rcases tiles_pos htl with ⟨t1, rfl, rfl⟩ | ⟨u, s', t1, rfl, t5, t6, t7, t8⟩
    · obtain ⟨e, h1, h2, h3⟩ := he
      subst h1
      exact absurd (hT.not_past rfl) (by simp)
    · have main : ∀ {t' : Token} {ls : List Mk} {ms : List (Nat × Mk)}, TokNew c t.tok t' → (∀ l ∈ ls, l.Holds c (P ++ g) (P ++ g ++ spell t')) →
          LEmits W env c none is ms (P ++ g ++ spell t') r →
          (Regular c → SpaceOk c pw t' H ∧ Spaces c (some t') [] is ts) → (Regular c → ∀ e ∈ S, e = [] ∨ (spell t' = ['{'] ∨ spell t' = ['}']) ∧ e = tableHint c) →
          (∀ {u : TokL} {os : List TokL}, u.tok = t' → Marked c (marksAt p ls ++ ms) r t u →
            Outs c (Marked c (marksAt p ls ++ ms) r) ts is ts' os →
            Outs c (Marked c (marksAt p ls ++ ms) r) (t :: ts) (.lit src out :: is) ts' (u :: os)) →
          ∃ R os, r = P ++ R ∧ (∀ m ∈ marksAt p ls ++ ms, t.l ≤ m.1) ∧ Spaced W c pw P.length (lastOr ' ' P) os R ∧
            Outs c (Marked c (marksAt p ls ++ ms) r) (t :: ts) (.lit src out :: is) ts' os ∧
            Render c NL env.buf.length P.length T pv (lastOr ' ' P) sg esG (t :: ts) os (u ++ s') R := by
        intro t' ls ms hnew hls hE hSq hTq hcon
        have hsol := hnew.solid hh (hso t (by simp) t1)
        have hf : P ++ g ++ spell t' = (P ++ (g ++ spell t')) ++ [] := by simp
        rw [hf] at hE
        obtain ⟨R, os, e1, eg, es, e0, e2⟩ := ih (pre := pre ++ u) (s := s') (P := P ++ (g ++ spell t')) (g := []) (sg := []) (esG := [])
          (esG' := []) (by simpa using hb) (by simp [hl, t5]) t8 he (fun t h => hso t (by simp [h]))
          (fun i h => hi i (by simp [h])) hS.2 .nil (fun _ => .inl rfl) (by rw [← List.append_assoc]; exact hsol.firm) .nil hE (.inl rfl)
          (fun h => (hSq h).2) .nil (fun _ => .nil) .nil (S := []) (fun h => (hTl h).2) .nil
        rw [← List.append_assoc P g, hsol.lastOr (y := ' ')] at e2 es
        have hlt : t.l < t.r := by
          have := List.length_pos_iff.mpr t6
          omega
        refine ⟨g ++ (spell t' ++ R), ⟨P.length + g.length, t', P.length + g.length + (spell t').length⟩ :: os, by rw [e1]; simp,
          fun m hm => ?_, .tok (t := ⟨P.length + g.length, t', P.length + g.length + (spell t').length⟩) (fun h1 h2 h3 h4 => by rw [hX h1 h2 h3 h4]; exact (hSq h1).1) hN hw.own (fun hW h => hTi.after (hTq h) hW h) ⟨rfl, rfl⟩ (by simpa [Nat.add_assoc] using es), hcon rfl (fun l hm => ?_) (e0.mono fun u hu u' hA l hm => ?_), ?_⟩
        · rcases List.mem_append.mp hm with hm | hm
          · obtain ⟨hm, _⟩ := mem_marksAt hm
            rcases hp with rfl | rfl
            · cases hm
            · exact Nat.le_of_eq (Option.some.inj hm)
          · have := eg m hm
            omega
        · rcases List.mem_append.mp hm with hm | hm
          · have := hls l (mem_marksAt hm).2
            rw [e1]
            have e : (P ++ (g ++ spell t') ++ R).take (P.length + g.length) = P ++ g := by
              rw [← List.length_append, show P ++ (g ++ spell t') ++ R = (P ++ g) ++ (spell t' ++ R) by simp, List.take_left]
            have e' : (P ++ (g ++ spell t') ++ R).take (P.length + g.length + (spell t').length) = P ++ g ++ spell t' := by
              rw [← List.length_append, ← List.length_append, show P ++ (g ++ spell t') ++ R = (P ++ g ++ spell t') ++ R by simp,
                List.take_left]
            simp only [e, e']
            exact this
          · have := eg _ hm
            simp only at this
            omega
        · rcases List.mem_append.mp hm with hm | hm
          · obtain ⟨hm, _⟩ := mem_marksAt hm
            have := tilesR_ge t8 u hu
            rcases hp with rfl | rfl
            · cases hm
            · have := Option.some.inj hm; simp only at this; omega
          · exact hA l hm
        have hlen : t.l + (u.length + s'.length) = env.buf.length := by rw [hb]; simp [hl]
        have := Render.tok (N := env.buf.length) (T := T) (pv := pv) (g := []) (es := []) (sg := sg) (esG := esG) t1 ⟨.nil, fun _ h => (by cases h)⟩ .nil t6 t7
          (t' := ⟨P.length + g.length, t', P.length + g.length + (spell t').length⟩)
          (by simpa using hw) (by simpa using hD.at hS.1) hnew ⟨rfl, rfl⟩ ⟨by simpa using hKp.mono fun ⟨h1, t', us, h2, h3⟩ => by cases h2; exact ⟨h1, h3⟩, hlen, by omega⟩
          (by simpa [Nat.add_assoc] using e2)
        simpa using this
      cases hE with
      | lit ls hls hE =>
        obtain ⟨t', hnew, rfl⟩ := hout.new hh
        exact main hnew hls hE (fun h => hSp h t' hnew rfl) (fun h => (hTl h).1) fun {u os} hu hA h => by
          subst hu
          exact .lit hnew hA h
      | litRaw ls hr' hls hE =>
        rw [hsrc] at hE hls
        exact main (.inl rfl) hls hE (fun h => absurd h.range (hr.resolve_left hr').line) (fun h => absurd h.range (hr.resolve_left hr').line) fun {u os} hu hA h => .litRaw (hr.resolve_left hr').line hu hA h
  | @trailNone a b ts ts' isF out is hF _ ih =>
    intro T pv B p ms pre s P g sg r esG esG' pw H S hb hl htl he hso hi hS hD hM hP hw hE hp hSp hX hN hKp hTl hTi
    have skip : out = [] ∨ TrailOk c isF [] false ∨ c.lineRange ≠ none → LEmits W env c none is ms (P ++ g) r → ∃ R os, r = P ++ R ∧ (∀ m ∈ ms, a ≤ m.1) ∧
        Spaced W c pw P.length (lastOr ' ' P) os R ∧
        Outs c (Marked c ms r) ts (.trail isF [] out :: is) ts' os ∧
      Render c NL env.buf.length P.length T pv (lastOr ' ' P) sg esG ts os s R :=
        fun ho hE2 => by
          cases isF with
          | false =>
            obtain ⟨R, os, e1, eg, es, e0, e2⟩ := ih hb hl htl he hso (fun i h => hi i (by simp [h])) hS hD hM hP hw hE2 (.inl rfl) hSp hX hN hKp hTl hTi
            exact ⟨R, os, e1, eg, es, .none ho e0, e2⟩
          | true =>
            obtain ⟨h1, h2, _⟩ := hS
            subst h1
            obtain ⟨R, os, e1, eg, es, e0, e2⟩ := ih hb hl htl he hso (fun i h => hi i (by simp [h])) h2 hD hM hP hw hE2 (.inl rfl) (fun h => (hSp h).1) hX hN hKp (fun h => (hTl h).2.1) hTi
            exact ⟨R, os, e1, eg, es, .none ho e0, e2.weaken⟩
    cases hE with
    | trailRaw hr' hE => exact skip (.inr (.inr (hr.resolve_left hr').line)) (by simpa using hE)
    | trail bb hb' hE =>
      cases bb with
      | false => exact skip (.inr (.inl hb')) (by simpa using hE)
      | true =>
        simp only [if_true] at hE
        cases isF with
        | false => simp [TrailOk] at hb'
        | true =>
          obtain ⟨hout, hcur⟩ := hF rfl
          cases hsep : c.str .fieldSeparator with
          | none =>
            rw [hsep] at hout
            subst hout
            exact skip (.inl rfl) (by simpa using hE)
          | some o =>
            rw [hsep] at hout
            simp only [Option.getD_some] at hout
            subst hout
            have hopt : c.bool .writeTrailingFieldSeparator = some true := by
              simp only [TrailOk, if_true] at hb'
              cases hv : c.bool .writeTrailingFieldSeparator with
              | none => rw [hv] at hb'; simp at hb'
              | some v => rw [hv] at hb'; simp at hb'; rw [hb']
            obtain ⟨sep, hsf, rfl⟩ : ∃ sep, isFieldSep sep = true ∧ out = spell sep := by
              rcases hh.sep out hsep with rfl | rfl
              · exact ⟨.comma, rfl, rfl⟩
              · exact ⟨.semicolon, rfl, rfl⟩
            have hsol := solid_sep hh hsep
            have hf : P ++ g ++ spell sep = (P ++ (g ++ spell sep)) ++ [] := by simp
            rw [hf] at hE
            obtain ⟨R, os, e1, eg, es, e0, e2⟩ := ih (P := P ++ (g ++ spell sep)) (g := []) (sg := []) (esG := [])
              (esG' := []) hb hl htl he hso
              (fun i h => hi i (by simp [h])) (hS.2.2 sep hsf) .nil (fun _ => .inl rfl) (by rw [← List.append_assoc]; exact hsol.firm) .nil hE (.inl rfl)
              (fun h => ((hSp h).2 sep hsf).2) .nil (fun _ => .nil) .nil (S := []) (fun h => (hTl h).2.2) .nil
            rw [← List.append_assoc P g, hsol.lastOr (y := ' ')] at e2 es
            refine ⟨g ++ (spell sep ++ R), ⟨P.length + g.length, sep, P.length + g.length + (spell sep).length⟩ :: os, by rw [e1]; simp, eg, .tok (t := ⟨P.length + g.length, sep, P.length + g.length + (spell sep).length⟩) (fun h1 h2 h3 h4 => by rw [hX h1 h2 h3 h4]; exact ((hSp h1).2 sep hsf).1) hN hw.own (fun hW h => hTi.after (hTl h).1.any hW h) ⟨rfl, rfl⟩ (by simpa [Nat.add_assoc] using es),
              .add (sep := ⟨P.length + g.length, sep, P.length + g.length + (spell sep).length⟩) hsf hb' hsep e0, ?_⟩
            have hTf := hS.1
            subst hTf
            have := Render.add (pv := pv) (g := []) (es := []) (sg := sg) (esG := esG) ⟨.nil, fun _ h => (by cases h)⟩ .nil hcur hopt
              (sep := ⟨P.length + g.length, sep, P.length + g.length + (spell sep).length⟩)
              hsf hsep (by simpa using hw) (by simpa using hD.at (.inr fun _ _ => by rw [adj_sep hsf]; rfl)) ⟨rfl, rfl⟩
              (by simpa [Nat.add_assoc] using e2)
            simpa using this
  | @trail b t ts ts' out is hfs hout hcur _ ih =>
    intro T pv B p ms pre s P g sg r esG esG' pw H S hb hl htl he hso hi hS hD hM hP hw hE hp hSp hX hN hKp hTl hTi
    have hne : t.tok ≠ .eof := by intro h; rw [h] at hfs; cases hfs
    have hsp : spell t.tok ≠ [] := by
      rcases isFieldSep_cases hfs with h | h <;> rw [h] <;> decide
    have hS : T = false ∧ pv ≠ some .minus ∧ Seps true pv B is ts ∧ Seps true (some t.tok) true is ts := by
      obtain ⟨y, l, hy⟩ := List.exists_cons_of_ne_nil hsp
      rw [hy] at hS
      exact hS
    obtain ⟨hTf, hm, hS1, hS2⟩ := hS
    subst hTf
    have hSp : Regular c → Spaces c pw H is ts ∧ ∀ sep, isFieldSep sep = true → SpaceOk c pw sep H ∧ Spaces c (some sep) [] is ts := by
      intro h
      have := hSp h
      obtain ⟨y, l, hy⟩ := List.exists_cons_of_ne_nil hsp
      rw [hy] at this
      exact this
    rcases tiles_pos htl with ⟨t1, _, _⟩ | ⟨u, s', t1, rfl, t5, t6, t7, t8⟩
    · exact absurd t1 hne
    · have hu : u = spell t.tok := by
        rcases t7 with h | ⟨x, e, h, _⟩
        · exact h.1
        · rw [h] at hfs; cases hfs
      have main : ∀ {t' : Token}, TokNew c t.tok t' → LEmits W env c none is ms (P ++ g ++ spell t') r →
          (∀ {u : TokL} {os : List TokL}, u.tok = t' → Outs c (Marked c ms r) ts is ts' os →
            Outs c (Marked c ms r) (t :: ts) (.trail true (spell t.tok) out :: is) ts' (u :: os)) →
          ∃ R os, r = P ++ R ∧ (∀ m ∈ ms, t.l ≤ m.1) ∧ Spaced W c pw P.length (lastOr ' ' P) os R ∧
            Outs c (Marked c ms r) (t :: ts) (.trail true (spell t.tok) out :: is) ts' os ∧
            Render c NL env.buf.length P.length false pv (lastOr ' ' P) sg esG (t :: ts) os (u ++ s') R := by
        intro t' hnew hE hcon
        have hsol := hnew.solid hh (hso t (by simp) t1)
        have hf : P ++ g ++ spell t' = (P ++ (g ++ spell t')) ++ [] := by simp
        rw [hf] at hE
        obtain ⟨R, os, e1, eg, es, e0, e2⟩ := ih (pre := pre ++ u) (s := s') (P := P ++ (g ++ spell t')) (g := []) (sg := []) (esG := [])
          (esG' := []) (by simpa using hb) (by simp [hl, t5]) t8 he (fun t h => hso t (by simp [h]))
          (fun i h => hi i (by simp [h])) hS2 .nil (fun _ => .inl rfl) (by rw [← List.append_assoc]; exact hsol.firm) .nil hE (.inl rfl)
          (fun h => ((hSp h).2 t' (hnew.fieldSep hfs)).2) .nil (fun _ => .nil) .nil (S := []) (fun h => (hTl h).2.2) .nil
        rw [← List.append_assoc P g, hsol.lastOr (y := ' ')] at e2 es
        have e2 := e2.weaken
        refine ⟨g ++ (spell t' ++ R), ⟨P.length + g.length, t', P.length + g.length + (spell t').length⟩ :: os, by rw [e1]; simp,
          fun m hm => Nat.le_trans (by omega) (eg m hm), .tok (t := ⟨P.length + g.length, t', P.length + g.length + (spell t').length⟩) (fun h1 h2 h3 h4 => by rw [hX h1 h2 h3 h4]; exact ((hSp h1).2 t' (hnew.fieldSep hfs)).1) hN hw.own (fun hW h => hTi.after (hTl h).1.any hW h) ⟨rfl, rfl⟩ (by simpa [Nat.add_assoc] using es), hcon rfl e0, ?_⟩
        have hlen : t.l + (u.length + s'.length) = env.buf.length := by rw [hb]; simp [hl]
        have := Render.tok (N := env.buf.length) (T := false) (pv := pv) (g := []) (es := []) (sg := sg) (esG := esG) t1 ⟨.nil, fun _ h => (by cases h)⟩ .nil t6 t7
          (t' := ⟨P.length + g.length, t', P.length + g.length + (spell t').length⟩)
          (by simpa using hw) (by simpa using hD.at (.inr fun _ _ => by rw [adj_sep hfs]; rfl)) hnew ⟨rfl, rfl⟩ ⟨by simpa using hKp.mono fun ⟨h1, t', us, h2, h3⟩ => by cases h2; exact ⟨h1, h3⟩, hlen, by omega⟩
          (by simpa [Nat.add_assoc] using e2)
        simpa using this
      cases hE with
      | trail bb hb' hE =>
        cases bb with
        | false =>
          simp only [Bool.false_eq_true, if_false] at hE
          have hopt : c.bool .writeTrailingFieldSeparator = some false ∨ c.bool .forceSingleLineTable = some true := by
            simp only [TrailOk, if_true] at hb'
            rcases hb' with h | ⟨_, h⟩
            · left
              cases hv : c.bool .writeTrailingFieldSeparator with
              | none => rw [hv] at h; simp [hsp] at h
              | some v => rw [hv] at h; simp at h; rw [← h]
            · exact .inr h
          obtain ⟨R, os, e1, eg, es, e0, e2⟩ := ih (pre := pre ++ u) (s := s') (by simpa using hb) (by simp [hl, t5]) t8 he
            (fun t h => hso t (by simp [h])) (fun i h => hi i (by simp [h])) hS1 hD
            (fun h => h.elim (fun h => absurd h hm) fun h => hopt.elim (fun h' => by rw [h.trailing] at h'; cases h') fun h' => absurd h' h.table)
            hP hw hE (.inl rfl) (fun h => (hSp h).1) hX hN
            (.of_not fun h => hopt.elim (fun h' => by rw [h.trailing] at h'; cases h') fun h' => absurd h' h.table)
            (fun h => (hTl h).2.1) hTi
          refine ⟨R, os, e1, fun m hm => Nat.le_trans (by omega) (eg m hm), es, .drop hfs hb' e0, ?_⟩
          have := Render.drop (g := []) (es := []) (sg := sg) (esG := esG) (t := t) (ts := ts) hfs hm
            ⟨.nil, fun _ h => (by cases h)⟩ .nil hcur hopt (by simpa using e2)
          simpa [hu] using this
        | true =>
          simp only [if_true] at hE
          have htok : TokOut c t.tok out := by
            cases hsep : c.str .fieldSeparator with
            | none => rw [hsep] at hout; exact .inl hout
            | some o => rw [hsep] at hout; exact .inr (.inr ⟨hfs, by rw [hout]; exact hsep⟩)
          obtain ⟨t', hnew, rfl⟩ := htok.new hh
          exact main hnew hE fun {u os} hu h => by
            subst hu
            exact .keep hfs hnew hb' h
      | trailRaw hr' hE =>
        exact main (.inl rfl) hE fun {u os} hu h => .keepRaw (hr.resolve_left hr').line hfs hu h

end Luafmt
