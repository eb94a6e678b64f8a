import Verif.Proofs.Inversion

/-
The parser of `Verif.Model.Parser` finds every derivation of the grammar: asked for a nonterminal at
the start of the tokens of one of its derivation trees, followed by a token that can follow it, it
returns that tree and stops there. Together with `Verif.Proofs.ParserSound` it accepts exactly the
token sequences the grammar derives, and every one has exactly one derivation tree.
-/
namespace Luafmt

/-- Precedence level of a binary operator. -/
def lvlBelow (k : Nat) (t : Token) : Bool :=
  match binOp t with
  | some (j, _) => decide (j < k)
  | none => true

/-- Tokens that can follow a statement. -/
def folStat (t : Token) : Bool := startsStat t || endsBlock t || t = .kwReturn

/-- Tokens that can follow a nonterminal (those the parser asks for). -/
def fol : NT → Token → Bool
  | .block, t => endsBlock t
  | .stats, t => endsBlock t || t = .kwReturn
  | .stat, t => folStat t
  | .statStartsMayEndsPar, t => folStat t
  | .retStat, t => endsBlock t
  | .funcName, t => t = .openRound
  | .expList, t => !startsSuffix t && (binOp t).isNone && t ≠ .comma
  | .opExp, t => !startsSuffix t && (binOp t).isNone
  | .op k, t => !startsSuffix t && lvlBelow k t
  | .exp, t => !startsSuffix t
  | .prefixMayStartsMayEndsPar, t => !startsSuffix t
  | .varMayExp, t => !startsSuffix t
  | .field, t => isFieldSep t || t = .closeCurly
  | _, _ => true

/-- How deep the parser goes below a nonterminal before it consumes a token; 0 for nonterminals it is
never asked for. -/
def rank : NT → Nat
  | .block => 26
  | .stats => 25
  | .stat => 23
  | .statStartsMayEndsPar => 22
  | .retStat => 22
  | .expList => 22
  | .field => 22
  | .opExp => 21
  | .op k => if k < 12 then 20 - k else 0
  | .exp => 8
  | .varMayExp => 8
  | .prefixMayStartsMayEndsPar => 7
  | .varSuffix => 5
  | .args => 4
  | .tableConstructor => 3
  | .funcBody => 3
  | .funcName => 3
  | .par => 2
  | .name => 1
  | _ => 0

/-- The operators of level `k` to the right of `acc`, their tokens, and the tree of the whole. -/
inductive OTail (k : Nat) : C → List Token → C → Prop
  | nil {acc : C} : OTail k acc [] acc
  | cons {acc e c : C} {tok : Token} {s : Str} {ts : List Token} : binOp tok = some (k, s) →
      Derives (nextOp k) e → OTail k (.node (.binaryOp s) [acc, .tok tok, e]) ts c →
      OTail k acc (tok :: (e.yield ++ ts)) c

theorem OTail.snoc {k : Nat} {acc c e : C} {ts : List Token} {tok : Token} {s : Str} (h : OTail k acc ts c)
    (hb : binOp tok = some (k, s)) (he : Derives (nextOp k) e) :
    OTail k acc (ts ++ tok :: e.yield) (.node (.binaryOp s) [c, .tok tok, e]) := by
  induction h with
  | nil => simpa using OTail.cons hb he .nil
  | cons hb' he' _ ih => simpa [List.append_assoc] using OTail.cons hb' he' ih

theorem inv_op {k : Nat} (hk : k < 12) (h10 : k ≠ 10) {c : C} (h : Derives (.op k) c) :
    Derives (nextOp k) c ∨ ∃ s tok x1 x3, c = .node (.binaryOp s) [x1, .tok tok, x3] ∧
      binOp tok = some (k, s) ∧ Derives (.op k) x1 ∧ Derives (nextOp k) x3 := by
  match k with
  | 0 => rcases inv_op0 h with h | ⟨x, y, rfl, h1, h2⟩; exact .inl h; exact .inr ⟨_, _, _, _, rfl, rfl, h1, h2⟩
  | 1 => rcases inv_op1 h with h | ⟨x, y, rfl, h1, h2⟩; exact .inl h; exact .inr ⟨_, _, _, _, rfl, rfl, h1, h2⟩
  | 2 =>
    rcases inv_op2 h with h | ⟨x, y, rfl, h1, h2⟩ | ⟨x, y, rfl, h1, h2⟩ | ⟨x, y, rfl, h1, h2⟩ |
      ⟨x, y, rfl, h1, h2⟩ | ⟨x, y, rfl, h1, h2⟩ | ⟨x, y, rfl, h1, h2⟩
    · exact .inl h
    all_goals exact .inr ⟨_, _, _, _, rfl, rfl, h1, h2⟩
  | 3 => rcases inv_op3 h with h | ⟨x, y, rfl, h1, h2⟩; exact .inl h; exact .inr ⟨_, _, _, _, rfl, rfl, h1, h2⟩
  | 4 => rcases inv_op4 h with h | ⟨x, y, rfl, h1, h2⟩; exact .inl h; exact .inr ⟨_, _, _, _, rfl, rfl, h1, h2⟩
  | 5 => rcases inv_op5 h with h | ⟨x, y, rfl, h1, h2⟩; exact .inl h; exact .inr ⟨_, _, _, _, rfl, rfl, h1, h2⟩
  | 6 =>
    rcases inv_op6 h with h | ⟨x, y, rfl, h1, h2⟩ | ⟨x, y, rfl, h1, h2⟩
    · exact .inl h
    all_goals exact .inr ⟨_, _, _, _, rfl, rfl, h1, h2⟩
  | 7 => rcases inv_op7 h with h | ⟨x, y, rfl, h1, h2⟩; exact .inl h; exact .inr ⟨_, _, _, _, rfl, rfl, h1, h2⟩
  | 8 =>
    rcases inv_op8 h with h | ⟨x, y, rfl, h1, h2⟩ | ⟨x, y, rfl, h1, h2⟩
    · exact .inl h
    all_goals exact .inr ⟨_, _, _, _, rfl, rfl, h1, h2⟩
  | 9 =>
    rcases inv_op9 h with h | ⟨x, y, rfl, h1, h2⟩ | ⟨x, y, rfl, h1, h2⟩ | ⟨x, y, rfl, h1, h2⟩ | ⟨x, y, rfl, h1, h2⟩
    · exact .inl h
    all_goals exact .inr ⟨_, _, _, _, rfl, rfl, h1, h2⟩
  | 10 => exact absurd rfl h10
  | 11 => rcases inv_op11 h with h | ⟨x, y, rfl, h1, h2⟩; exact .inl h; exact .inr ⟨_, _, _, _, rfl, rfl, h1, h2⟩
  | k + 12 => omega

theorem op_tail {k : Nat} (hk : k < 12) (h10 : k ≠ 10) {c : C} (h : Derives (.op k) c) :
    ∃ e ts, Derives (nextOp k) e ∧ OTail k e ts c ∧ c.yield = e.yield ++ ts := by
  induction hl : c.yield.length using Nat.strongRecOn generalizing c with
  | _ m ih =>
    rcases inv_op hk h10 h with h | ⟨s, tok, x1, x3, rfl, hb, h1, h3⟩
    · exact ⟨c, [], h, .nil, by simp⟩
    · simp only [Cst.yield, Cst.yields, List.length_append, List.length_cons, List.length_nil] at hl
      obtain ⟨e, ts, he, ht, hy⟩ := ih _ (by omega) h1 rfl
      refine ⟨e, _, he, ht.snoc hb h3, ?_⟩
      simp [Cst.yield, Cst.yields, hy]

/-- The requests of the parser are answered completely, for trees that are small enough for the bound
`f` on the depth of the recursion. -/
structure Comp (rec : Req → List Token → PRes) (f : Nat) : Prop where
  nt : ∀ {n : NT} {c : C}, Derives n c → 0 < rank n → 32 * c.yield.length + rank n ≤ f →
    ∀ (t : Token) (X : List Token), fol n t = true → rec (.nt n) (c.yield ++ t :: X) = some ([c], t :: X)
  statList : ∀ {cs : List C}, (∀ c ∈ cs, Derives .stat c) → 32 * (Cst.yields cs).length + 24 ≤ f →
    ∀ (t : Token) (X : List Token), (endsBlock t || t = .kwReturn) = true →
    rec .statList (Cst.yields cs ++ t :: X) = some (cs, t :: X)
  elseIfs : ∀ {cs : List C}, (∀ c ∈ cs, Derives .elseIfThen c) → 32 * (Cst.yields cs).length + 1 ≤ f →
    ∀ (t : Token) (X : List Token), (t = .kwElse ∨ t = .kwEnd) →
    rec .elseIfs (Cst.yields cs ++ t :: X) = some (cs, t :: X)
  suffixes : ∀ {cs : List C}, (∀ c ∈ cs, Derives .varSuffix c) → 32 * (Cst.yields cs).length + 6 ≤ f →
    ∀ (t : Token) (X : List Token), startsSuffix t = false →
    rec .suffixes (Cst.yields cs ++ t :: X) = some (cs, t :: X)
  sepTail : ∀ {n : NT} {tok : Token} {cs : List C}, STail n tok cs → 0 < rank n → fol n tok = true →
    32 * (Cst.yields cs).length + 1 ≤ f →
    ∀ (t : Token) (X : List Token), t ≠ tok → fol n t = true →
    rec (.sepTail n tok) (Cst.yields cs ++ t :: X) = some (cs, t :: X)
  fieldItems : ∀ {cs : List C}, FItems .field cs → 32 * (Cst.yields cs).length + 23 ≤ f →
    ∀ (X : List Token), rec .fieldItems (Cst.yields cs ++ .closeCurly :: X) = some (cs, .closeCurly :: X)
  opTail : ∀ {k : Nat} {acc c : C} {ts : List Token}, OTail k acc ts c → k < 12 → 32 * ts.length + 1 ≤ f →
    ∀ (t : Token) (X : List Token), fol (.op k) t = true →
    rec (.opTail k acc) (ts ++ t :: X) = some ([c], t :: X)

@[simp] theorem one_single (c : C) (ts : List Token) : one (some ([c], ts)) = some (c, ts) := rfl
@[simp] theorem expect_self (t : Token) (ts : List Token) : expect t (t :: ts) = some ts := by simp [expect]

theorem len_pos {n : NT} {c : C} (h : Derives n c) : 1 ≤ c.yield.length := by
  obtain ⟨t, ts, h1, _⟩ := derives_first h
  simp [h1]

theorem Many.all {n : NT} {cs : List C} (h : Many n cs) : ∀ c ∈ cs, Derives n c := by
  induction h with
  | last h => simpa using h
  | cons h _ ih => simpa using ⟨h, ih⟩

theorem Many.ne {n : NT} {cs : List C} (h : Many n cs) : cs ≠ [] := by cases h <;> simp

theorem starts_stat {c : C} (h : Derives .stat c) : ∃ t ts, c.yield = t :: ts ∧ startsStat t = true := by
  obtain ⟨t, ts, h1, h2⟩ := derives_first h
  refine ⟨t, ts, h1, ?_⟩
  cases t <;> first | rfl | (simp [Token.kind, firstToks] at h2)

theorem starts_block {c : C} (h : Derives .block c) : ∃ t ts, c.yield = t :: ts ∧ startsBlock t = true := by
  obtain ⟨t, ts, h1, h2⟩ := derives_first h
  refine ⟨t, ts, h1, ?_⟩
  cases t <;> first | rfl | (simp [Token.kind, firstToks] at h2)

theorem starts_suffix {c : C} (h : Derives .varSuffix c) : ∃ t ts, c.yield = t :: ts ∧ startsSuffix t = true := by
  obtain ⟨t, ts, h1, h2⟩ := derives_first h
  refine ⟨t, ts, h1, ?_⟩
  cases t <;> first | rfl | (simp [Token.kind, firstToks] at h2)

theorem starts_exp {c : C} (h : Derives .expList c) : ∃ t ts, c.yield = t :: ts ∧ startsExp t = true := by
  obtain ⟨t, ts, h1, h2⟩ := derives_first h
  refine ⟨t, ts, h1, ?_⟩
  cases t <;> first | rfl | (simp [Token.kind, firstToks] at h2)

/-! ### The tokens that follow a statement can follow its last part -/

theorem endsBlock_stat {t : Token} (h : endsBlock t = true) : folStat t = true := by simp [folStat, h]

theorem folStat_expList {t : Token} (h : folStat t = true) : fol .expList t = true := by
  cases t <;> first | rfl | (simp [folStat, startsStat, endsBlock] at h)

theorem folStat_opExp {t : Token} (h : folStat t = true) : fol .opExp t = true := by
  cases t <;> first | rfl | (simp [folStat, startsStat, endsBlock] at h)

theorem folStat_suffix {t : Token} (h : folStat t = true) : startsSuffix t = false := by
  cases t <;> first | rfl | (simp [folStat, startsStat, endsBlock] at h)

section
variable {rec : Req → List Token → PRes} {f : Nat} (H : Comp rec f)
include H

/-- A block if one is there; `b` is empty or one block. -/
theorem optBlock_comp {b : List C} (hb : b = [] ∨ ∃ x, b = [x] ∧ Derives .block x)
    (hf : 32 * (Cst.yields b).length + 26 ≤ f) {t : Token} (X : List Token) (ht : endsBlock t = true) :
    optBlock rec (Cst.yields b ++ t :: X) = some (b, t :: X) := by
  rcases hb with rfl | ⟨x, rfl, hd⟩
  · have : startsBlock t = false := by cases t <;> first | rfl | (simp [endsBlock] at ht)
    simp [Cst.yields, optBlock, this]
  · obtain ⟨u, us, h1, h2⟩ := starts_block hd
    have := H.nt hd (by decide) (by simpa [Cst.yields, rank] using hf) t X ht
    simp only [Cst.yields, List.append_nil, h1, List.cons_append] at this ⊢
    simp [optBlock, h2, this]

theorem blockP_comp {c : C} (h : Derives .block c) (hf : 32 * c.yield.length + 26 ≤ f + 1) {t : Token} (X : List Token)
    (ht : fol .block t = true) : blockP rec (c.yield ++ t :: X) = some (c, t :: X) := by
  have hr {x : C} (hx : Derives .retStat x) : ∃ ts, x.yield = .kwReturn :: ts := by
    obtain ⟨u, us, h1, h2⟩ := derives_first hx
    cases u <;> simp [Token.kind, firstToks] at h2
    exact ⟨_, h1⟩
  have hs {x : C} (hx : Derives .stats x) : ∃ u ts, x.yield = u :: ts ∧ u ≠ .kwReturn := by
    obtain ⟨u, us, h1, h2⟩ := derives_first hx
    refine ⟨u, us, h1, ?_⟩
    rintro rfl
    simp [Token.kind, firstToks] at h2
  have htr : t ≠ .kwReturn := by rintro rfl; simp [fol, endsBlock] at ht
  rcases inv_block h with h | h | ⟨x1, x2, rfl, h1, h2⟩
  · have h3 := H.nt h (by decide) (by simp only [rank]; omega) t X (by simp [fol] at ht ⊢; simp [ht])
    obtain ⟨u, us, hu, hne⟩ := hs h
    simp only [hu, List.cons_append] at h3 ⊢
    simp [blockP, hne, h3, htr]
  · have h3 := H.nt h (by decide) (by simp only [rank]; omega) t X ht
    obtain ⟨us, hu⟩ := hr h
    simp only [hu, List.cons_append] at h3 ⊢
    simp [blockP, h3]
  · simp only [Cst.yield, Cst.yields, List.append_nil, List.length_append] at hf ⊢
    have l1 := len_pos h1
    have l2 := len_pos h2
    obtain ⟨us, hu⟩ := hr h2
    have h3 := H.nt h1 (by decide) (by simp only [rank]; omega) .kwReturn (us ++ t :: X) rfl
    have h4 := H.nt h2 (by decide) (by simp only [rank]; omega) t X ht
    obtain ⟨u, us', hu', hne⟩ := hs h1
    simp only [hu, hu', List.cons_append, List.append_assoc] at h3 h4 ⊢
    simp [blockP, hne, h3, h4]

theorem statsP_comp {c : C} (h : Derives .stats c) (hf : 32 * c.yield.length + 25 ≤ f + 1) {t : Token} (X : List Token)
    (ht : fol .stats t = true) : statsP rec (c.yield ++ t :: X) = some (c, t :: X) := by
  have hfs : folStat t = true := by
    simp only [fol, Bool.or_eq_true] at ht
    rcases ht with h | h <;> simp [folStat, h]
  have hp {x : C} (hx : Derives .statStartsMayEndsPar x) : ∃ ts, x.yield = .openRound :: ts := by
    obtain ⟨u, us, h1, h2⟩ := derives_first hx
    cases u <;> simp [Token.kind, firstToks] at h2
    exact ⟨_, h1⟩
  -- a statement followed by statements
  have key : ∀ {n : NT} {x : C} {xs : List C}, Derives n x → (∀ u, folStat u = true → fol n u = true) → 0 < rank n →
      rank n ≤ 23 → (∀ c ∈ xs, Derives .stat c) → 32 * (x.yield.length + (Cst.yields xs).length) + 25 ≤ f + 1 →
      rec (.nt n) (x.yield ++ (Cst.yields xs ++ t :: X)) = some ([x], Cst.yields xs ++ t :: X) ∧
      rec .statList (Cst.yields xs ++ t :: X) = some (xs, t :: X) := by
    intro n x xs hx hfo hr0 hr hxs hl
    have l := len_pos hx
    refine ⟨?_, H.statList hxs (by omega) t X ht⟩
    cases xs with
    | nil => simpa [Cst.yields] using H.nt hx hr0 (by omega) t X (hfo _ hfs)
    | cons y ys =>
      obtain ⟨u, us, hu, hs⟩ := starts_stat (hxs y (by simp))
      have := H.nt hx hr0 (by omega) u (us ++ (Cst.yields ys ++ t :: X)) (hfo _ (by simp [folStat, hs]))
      simpa [Cst.yields, hu] using this
  rcases inv_stats h with ⟨x, rfl, h1⟩ | ⟨x, xs, rfl, h1, h2⟩ | ⟨xs, rfl, h2⟩
  · simp only [Cst.yield, Cst.yields, List.append_nil] at hf ⊢
    obtain ⟨k1, k2⟩ := key (xs := []) h1 (fun _ h => h) (by decide) (by decide) (by simp) (by simpa [Cst.yields] using hf)
    obtain ⟨us, hu⟩ := hp h1
    simp only [Cst.yields, hu, List.cons_append, List.nil_append] at k1 k2 ⊢
    simp [statsP, k1, k2]
  · simp only [Cst.yield, Cst.yields, List.length_append] at hf ⊢
    obtain ⟨k1, k2⟩ := key (xs := xs) h1 (fun _ h => h) (by decide) (by decide) h2.all hf
    obtain ⟨us, hu⟩ := hp h1
    simp only [hu, List.cons_append, List.append_assoc] at k1 k2 ⊢
    simp [statsP, k1, k2]
  · cases xs with
    | nil => exact absurd rfl h2.ne
    | cons x xs =>
      have hx : Derives .stat x := h2.all x (by simp)
      simp only [Cst.yield, Cst.yields, List.length_append] at hf ⊢
      obtain ⟨k1, k2⟩ := key (xs := xs) hx (fun _ h => h) (by decide) (by decide)
        (fun c hc => h2.all c (by simp [hc])) hf
      obtain ⟨u, us, hu, hs⟩ := starts_stat hx
      have hne : u ≠ .openRound := by rintro rfl; cases hs
      simp only [hu, List.cons_append, List.append_assoc] at k1 k2 ⊢
      simp [statsP, k1, k2, hne]

theorem statListP_comp {cs : List C} (h : ∀ c ∈ cs, Derives .stat c) (hf : 32 * (Cst.yields cs).length + 24 ≤ f + 1)
    {t : Token} (X : List Token) (ht : (endsBlock t || t = .kwReturn) = true) :
    statListP rec (Cst.yields cs ++ t :: X) = some (cs, t :: X) := by
  have hfs : folStat t = true := by
    simp only [Bool.or_eq_true] at ht
    rcases ht with h | h <;> simp [folStat, h]
  cases cs with
  | nil =>
    have : startsStat t = false := by cases t <;> first | rfl | (simp [endsBlock] at ht)
    simp [Cst.yields, statListP, this]
  | cons x xs =>
    have hx := h x (by simp)
    have l := len_pos hx
    simp only [Cst.yields, List.length_append] at hf ⊢
    have k2 := H.statList (fun c hc => h c (by simp [hc])) (by omega) t X ht (cs := xs)
    have k1 : rec (.nt .stat) (x.yield ++ (Cst.yields xs ++ t :: X)) = some ([x], Cst.yields xs ++ t :: X) := by
      cases xs with
      | nil => simpa [Cst.yields] using H.nt hx (by decide) (by simp only [rank]; omega) t X hfs
      | cons y ys =>
        obtain ⟨u, us, hu, hs⟩ := starts_stat (h y (by simp))
        have := H.nt hx (by decide) (by simp only [rank]; omega) u (us ++ (Cst.yields ys ++ t :: X)) (by simp [fol, folStat, hs])
        simpa [Cst.yields, hu] using this
    obtain ⟨u, us, hu, hs⟩ := starts_stat hx
    simp only [hu, List.cons_append, List.append_assoc] at k1 k2 ⊢
    simp [statListP, k1, k2, hs]

omit H in
theorem nameP_comp {c : C} (h : Derives .name c) (X : List Token) : nameP (c.yield ++ X) = some (c, X) := by
  obtain ⟨s, rfl⟩ := inv_name h
  rfl

omit H in
theorem name_yield {c : C} (h : Derives .name c) : ∃ s, c.yield = [.variable s] := by
  obtain ⟨s, rfl⟩ := inv_name h
  exact ⟨s, rfl⟩

omit H in
/-- A variable that starts with a name: the name and its suffixes. -/
theorem varNoExp_shape {v : C} (h : Derives .varNoExp v) : ∃ x ss, Derives .name x ∧ (∀ c ∈ ss, Derives .varSuffix c) ∧
    v = (if ss.isEmpty then x else .node .var [x, .node .varSuffixList ss]) ∧ v.yield = x.yield ++ Cst.yields ss := by
  rcases inv_varNoExp h with h | ⟨x, l, rfl, h1, h2⟩
  · exact ⟨v, [], h, by simp, rfl, by simp [Cst.yields]⟩
  · obtain ⟨ss, rfl, hm⟩ := inv_varSuffixList h2
    refine ⟨x, ss, h1, hm.all, ?_, by simp [Cst.yield, Cst.yields]⟩
    have := hm.ne
    cases ss <;> simp_all

theorem nameStatP_call {x : C} {ss : List C} (hx : Derives .name x) (hs : ∀ c ∈ ss, Derives .varSuffix c) (hne : ss ≠ [])
    (hf : 32 * (Cst.yields ss).length + 6 ≤ f) {t : Token} (X : List Token) (ht : folStat t = true) :
    nameStatP rec (x.yield ++ (Cst.yields ss ++ t :: X)) =
      some (.node .var [x, .node .varSuffixList ss], t :: X) := by
  have k1 := H.suffixes hs hf t X (folStat_suffix ht)
  have n1 : t ≠ .equalsSign := by rintro rfl; cases ht
  have n2 : t ≠ .comma := by rintro rfl; cases ht
  simp [nameStatP, nameP_comp hx, k1, n1, n2, hne]

theorem nameStatP_assign {v e : C} {vs : List C} (hv : Derives .varNoExp v) (hvs : STail .varMayExp .comma vs)
    (he : Derives .expList e)
    (hf : 32 * (v.yield.length + (Cst.yields vs).length + e.yield.length) + 23 ≤ f) {t : Token} (X : List Token)
    (ht : folStat t = true) :
    nameStatP rec (v.yield ++ (Cst.yields vs ++ .equalsSign :: (e.yield ++ t :: X))) =
      some (.node .varsExprs [.node (.varList []) (v :: vs), .tok .equalsSign, e], t :: X) := by
  obtain ⟨x, ss, hx, hs, hveq, hy⟩ := varNoExp_shape hv
  rw [hy, List.length_append] at hf
  have k0 := nameP_comp hx
  have k2 := H.sepTail hvs (by decide) rfl (by omega) .equalsSign (e.yield ++ t :: X) (by decide) rfl
  have k3 := H.nt he (by decide) (by simp only [rank]; omega) t X (folStat_expList ht)
  rw [hy]
  cases hvs with
  | nil =>
    have k1 := H.suffixes hs (by omega) .equalsSign (e.yield ++ t :: X) rfl
    simp only [Cst.yields, List.nil_append, List.append_assoc] at k2 ⊢
    simp [nameStatP, k0, k1, k2, k3, hveq]
  | cons hd htl =>
    rename_i y ys
    have k1 := H.suffixes hs (by omega) .comma (y.yield ++ (Cst.yields ys ++ .equalsSign :: (e.yield ++ t :: X))) rfl
    simp only [Cst.yields, Cst.yield, List.nil_append, List.cons_append, List.append_assoc] at k2 ⊢
    simp [nameStatP, k0, k1, k2, k3, hveq]

theorem repeatP_comp {b : List C} {e : C} (hb : b = [] ∨ ∃ x, b = [x] ∧ Derives .block x) (he : Derives .opExp e)
    (hf : 32 * ((Cst.yields b).length + e.yield.length) + 26 ≤ f) {t : Token} (X : List Token) (ht : folStat t = true) :
    repeatP rec (.kwRepeat :: (Cst.yields b ++ .kwUntil :: (e.yield ++ t :: X))) =
      some (.node (if b.isEmpty then .repeatUntil else .repeatBUntil) (.tok .kwRepeat :: b ++ [.tok .kwUntil, e]), t :: X) := by
  have k1 := optBlock_comp H hb (by omega) (t := .kwUntil) (e.yield ++ t :: X) rfl
  have k2 := H.nt he (by decide) (by simp only [rank]; omega) t X (folStat_opExp ht)
  simp [repeatP, k1, k2]

theorem localP_func {n b : C} (hn : Derives .name n) (hb : Derives .funcBody b) (hf : 32 * b.yield.length + 3 ≤ f)
    (t : Token) (X : List Token) :
    localP rec (.kwLocal :: .kwFunction :: (n.yield ++ (b.yield ++ t :: X))) =
      some (.node .localFuncDecl [.tok .kwLocal, .tok .kwFunction, n, b], t :: X) := by
  have k1 := H.nt hb (by decide) hf t X rfl
  simp [localP, nameP_comp hn, k1]

theorem localP_names {n : C} {ns : List C} (hn : Derives .name n) (hns : STail .name .comma ns)
    (hf : 32 * (Cst.yields ns).length + 1 ≤ f) {t : Token} (X : List Token) (ht : folStat t = true ∨ t = .openRound) :
    localP rec (.kwLocal :: (n.yield ++ (Cst.yields ns ++ t :: X))) =
      some (.node .localNames [.tok .kwLocal, .node (.nameList []) (n :: ns)], t :: X) := by
  have n1 : t ≠ .equalsSign := by rintro rfl; rcases ht with h | h <;> cases h
  have n2 : t ≠ .comma := by rintro rfl; rcases ht with h | h <;> cases h
  have k1 := H.sepTail hns (by decide) rfl hf t X n2 rfl
  have k0 := nameP_comp hn
  obtain ⟨s, hs⟩ := name_yield hn
  simp only [hs, List.cons_append, List.nil_append] at k0 ⊢
  simp [localP, k0, k1, n1]

theorem localP_assign {n e : C} {ns : List C} (hn : Derives .name n) (hns : STail .name .comma ns) (he : Derives .expList e)
    (hf : 32 * ((Cst.yields ns).length + e.yield.length) + 22 ≤ f) {t : Token} (X : List Token) (ht : folStat t = true) :
    localP rec (.kwLocal :: (n.yield ++ (Cst.yields ns ++ .equalsSign :: (e.yield ++ t :: X)))) =
      some (.node .localNamesExprs [.tok .kwLocal, .node (.nameList []) (n :: ns), .tok .equalsSign, e], t :: X) := by
  have k1 := H.sepTail hns (by decide) rfl (by omega) .equalsSign (e.yield ++ t :: X) (by decide) rfl
  have k2 := H.nt he (by decide) (by simp only [rank]; omega) t X (folStat_expList ht)
  have k0 := nameP_comp hn
  obtain ⟨s, hs⟩ := name_yield hn
  simp only [hs, List.cons_append, List.nil_append] at k0 ⊢
  simp [localP, k0, k1, k2]

omit H in
theorem first_elseIf {c : C} (h : Derives .elseIfThen c) : ∃ ts, c.yield = .kwElseIf :: ts := by
  obtain ⟨u, us, h1, h2⟩ := derives_first h
  cases u <;> simp [Token.kind, firstToks] at h2
  exact ⟨_, h1⟩

theorem ifP_comp {e : C} {b v : List C} {el : Option (List C)} (he : Derives .opExp e)
    (hb : b = [] ∨ ∃ x, b = [x] ∧ Derives .block x) (hv : ∀ c ∈ v, Derives .elseIfThen c)
    (hel : ∀ b2, el = some b2 → (b2 = [] ∨ ∃ x, b2 = [x] ∧ Derives .block x))
    (hf : 32 * (e.yield.length + (Cst.yields b).length + (Cst.yields v).length +
      (match el with | none => 0 | some b2 => (Cst.yields b2).length)) + 26 ≤ f) (X : List Token) :
    ifP rec (.kwIf :: (e.yield ++ .kwThen :: (Cst.yields b ++ (Cst.yields v ++
      (match el with | none => .kwEnd :: X | some b2 => .kwElse :: (Cst.yields b2 ++ .kwEnd :: X)))))) =
    some (.node (ifTag (!b.isEmpty) (!v.isEmpty) el.isSome (match el with | none => false | some b2 => !b2.isEmpty))
      ([.tok .kwIf, e, .tok .kwThen] ++ b ++ (if v.isEmpty then [] else [.node .elseIfThenVec v]) ++
        (match el with | none => [.tok .kwEnd] | some b2 => .tok .kwElse :: b2 ++ [.tok .kwEnd])), X) := by
  cases el with
  | none =>
    simp only at hf ⊢
    have k1 := H.nt he (by decide) (by simp only [rank]; omega) .kwThen (Cst.yields b ++ (Cst.yields v ++ .kwEnd :: X)) rfl
    have k3 := H.elseIfs hv (by omega) .kwEnd X (.inr rfl)
    have k2 : optBlock rec (Cst.yields b ++ (Cst.yields v ++ .kwEnd :: X)) = some (b, Cst.yields v ++ .kwEnd :: X) := by
      cases v with
      | nil => exact optBlock_comp H hb (by omega) X rfl
      | cons y ys =>
        obtain ⟨us, hu⟩ := first_elseIf (hv y (by simp))
        have := optBlock_comp H hb (by omega) (t := .kwElseIf) (us ++ (Cst.yields ys ++ .kwEnd :: X)) rfl
        simpa [Cst.yields, hu] using this
    simp [ifP, k1, k2, k3]
  | some b2 =>
    simp only at hf ⊢
    have k1 := H.nt he (by decide) (by simp only [rank]; omega) .kwThen
      (Cst.yields b ++ (Cst.yields v ++ .kwElse :: (Cst.yields b2 ++ .kwEnd :: X))) rfl
    have k3 := H.elseIfs hv (by omega) .kwElse (Cst.yields b2 ++ .kwEnd :: X) (.inl rfl)
    have k2 : optBlock rec (Cst.yields b ++ (Cst.yields v ++ .kwElse :: (Cst.yields b2 ++ .kwEnd :: X))) =
        some (b, Cst.yields v ++ .kwElse :: (Cst.yields b2 ++ .kwEnd :: X)) := by
      cases v with
      | nil => exact optBlock_comp H hb (by omega) _ rfl
      | cons y ys =>
        obtain ⟨us, hu⟩ := first_elseIf (hv y (by simp))
        have := optBlock_comp H hb (by omega) (t := .kwElseIf)
          (us ++ (Cst.yields ys ++ .kwElse :: (Cst.yields b2 ++ .kwEnd :: X))) rfl
        simpa [Cst.yields, hu] using this
    have k4 := optBlock_comp H (hel b2 rfl) (by omega) (t := .kwEnd) X rfl
    simp [ifP, k1, k2, k3, k4]

theorem elseIfsP_comp {cs : List C} (h : ∀ c ∈ cs, Derives .elseIfThen c) (hf : 32 * (Cst.yields cs).length + 1 ≤ f + 1)
    {t : Token} (X : List Token) (ht : t = .kwElse ∨ t = .kwEnd) :
    elseIfsP rec (Cst.yields cs ++ t :: X) = some (cs, t :: X) := by
  cases cs with
  | nil =>
    have : t ≠ .kwElseIf := by rintro rfl; rcases ht with h | h <;> cases h
    simp [elseIfsP, Cst.yields, this]
  | cons c cs =>
    have hc := h c (by simp)
    have hcs : ∀ x ∈ cs, Derives .elseIfThen x := fun x hx => h x (by simp [hx])
    have main : ∀ {e : C} {b : List C}, Derives .opExp e → (b = [] ∨ ∃ x, b = [x] ∧ Derives .block x) →
        32 * (1 + e.yield.length + 1 + (Cst.yields b).length + (Cst.yields cs).length) ≤ f →
        elseIfsP rec (.kwElseIf :: (e.yield ++ .kwThen :: (Cst.yields b ++ (Cst.yields cs ++ t :: X)))) =
        some (.node (if b.isEmpty then .elseIfThen else .elseIfThenB) ([.tok .kwElseIf, e, .tok .kwThen] ++ b) :: cs, t :: X) := by
      intro e b he hb hl
      have k1 := H.nt he (by decide) (by simp only [rank]; omega) .kwThen (Cst.yields b ++ (Cst.yields cs ++ t :: X)) rfl
      have k3 := H.elseIfs hcs (by omega) t X ht
      have k2 : optBlock rec (Cst.yields b ++ (Cst.yields cs ++ t :: X)) = some (b, Cst.yields cs ++ t :: X) := by
        cases cs with
        | nil => exact optBlock_comp H hb (by omega) X (by rcases ht with rfl | rfl <;> rfl)
        | cons y ys =>
          obtain ⟨us, hu⟩ := first_elseIf (hcs y (by simp))
          have := optBlock_comp H hb (by omega) (t := .kwElseIf) (us ++ (Cst.yields ys ++ t :: X)) rfl
          simpa [Cst.yields, hu] using this
      simp [elseIfsP, k1, k2, k3]
    rcases inv_elseIfThen hc with ⟨e, rfl, he⟩ | ⟨e, x, rfl, he, hx⟩
    · have := main (b := []) he (.inl rfl) (by simp [Cst.yields, Cst.yield] at hf ⊢; omega)
      simpa [Cst.yields, Cst.yield] using this
    · have := main (b := [x]) he (.inr ⟨x, rfl, hx⟩) (by simp [Cst.yields, Cst.yield] at hf ⊢; omega)
      simpa [Cst.yields, Cst.yield] using this

theorem forP_int {n e1 e2 : C} {b : List C} (hn : Derives .name n) (h1 : Derives .opExp e1) (h2 : Derives .opExp e2)
    (hb : b = [] ∨ ∃ x, b = [x] ∧ Derives .block x)
    (hf : 32 * (e1.yield.length + e2.yield.length + (Cst.yields b).length) + 26 ≤ f) (X : List Token) :
    forP rec (.kwFor :: (n.yield ++ .equalsSign :: (e1.yield ++ .comma :: (e2.yield ++ .kwDo :: (Cst.yields b ++ .kwEnd :: X))))) =
    some (.node (if b.isEmpty then .forInt else .forIntB)
        ([.tok .kwFor, n, .tok .equalsSign, e1, .tok .comma, e2, .tok .kwDo] ++ b ++ [.tok .kwEnd]), X) := by
  have k1 := H.nt h1 (by decide) (by simp only [rank]; omega) .comma (e2.yield ++ .kwDo :: (Cst.yields b ++ .kwEnd :: X)) rfl
  have k2 := H.nt h2 (by decide) (by simp only [rank]; omega) .kwDo (Cst.yields b ++ .kwEnd :: X) rfl
  have k3 := optBlock_comp H hb (by omega) (t := .kwEnd) X rfl
  simp [forP, nameP_comp hn, k1, k2, k3]

theorem forP_step {n e1 e2 e3 : C} {b : List C} (hn : Derives .name n) (h1 : Derives .opExp e1) (h2 : Derives .opExp e2)
    (h3 : Derives .opExp e3) (hb : b = [] ∨ ∃ x, b = [x] ∧ Derives .block x)
    (hf : 32 * (e1.yield.length + e2.yield.length + e3.yield.length + (Cst.yields b).length) + 26 ≤ f) (X : List Token) :
    forP rec (.kwFor :: (n.yield ++ .equalsSign :: (e1.yield ++ .comma :: (e2.yield ++ .comma :: (e3.yield ++
      .kwDo :: (Cst.yields b ++ .kwEnd :: X)))))) =
    some (.node (if b.isEmpty then .forIntStep else .forIntStepB)
        ([.tok .kwFor, n, .tok .equalsSign, e1, .tok .comma, e2, .tok .comma, e3, .tok .kwDo] ++ b ++ [.tok .kwEnd]), X) := by
  have k1 := H.nt h1 (by decide) (by simp only [rank]; omega) .comma
    (e2.yield ++ .comma :: (e3.yield ++ .kwDo :: (Cst.yields b ++ .kwEnd :: X))) rfl
  have k2 := H.nt h2 (by decide) (by simp only [rank]; omega) .comma (e3.yield ++ .kwDo :: (Cst.yields b ++ .kwEnd :: X)) rfl
  have k3 := H.nt h3 (by decide) (by simp only [rank]; omega) .kwDo (Cst.yields b ++ .kwEnd :: X) rfl
  have k4 := optBlock_comp H hb (by omega) (t := .kwEnd) X rfl
  simp [forP, nameP_comp hn, k1, k2, k3, k4]

theorem forP_range {n e : C} {ns b : List C} (hn : Derives .name n) (hns : STail .name .comma ns) (he : Derives .expList e)
    (hb : b = [] ∨ ∃ x, b = [x] ∧ Derives .block x)
    (hf : 32 * ((Cst.yields ns).length + e.yield.length + (Cst.yields b).length) + 26 ≤ f) (X : List Token) :
    forP rec (.kwFor :: (n.yield ++ (Cst.yields ns ++ .kwIn :: (e.yield ++ .kwDo :: (Cst.yields b ++ .kwEnd :: X))))) =
    some (.node (if b.isEmpty then .forRange else .forRangeB)
      ([.tok .kwFor, .node (.nameList []) (n :: ns), .tok .kwIn, e, .tok .kwDo] ++ b ++ [.tok .kwEnd]), X) := by
  have k1 := H.sepTail hns (by decide) rfl (by omega) .kwIn (e.yield ++ .kwDo :: (Cst.yields b ++ .kwEnd :: X)) (by decide) rfl
  have k2 := H.nt he (by decide) (by simp only [rank]; omega) .kwDo (Cst.yields b ++ .kwEnd :: X) rfl
  have k3 := optBlock_comp H hb (by omega) (t := .kwEnd) X rfl
  have hh : (Cst.yields ns ++ .kwIn :: (e.yield ++ .kwDo :: (Cst.yields b ++ .kwEnd :: X))).head? ≠ some .equalsSign := by
    cases hns <;> simp [Cst.yields, Cst.yield]
  simp only [forP, expect_self, nameP_comp hn, Option.bind_eq_bind, Option.bind_some, if_neg hh]
  simp [k1, k2, k3]

theorem doP_comp {b : List C} (hb : b = [] ∨ ∃ x, b = [x] ∧ Derives .block x)
    (hf : 32 * (Cst.yields b).length + 26 ≤ f) (X : List Token) :
    simpleStatP rec (.kwDo :: (Cst.yields b ++ .kwEnd :: X)) =
      some (.node (if b.isEmpty then .doEnd else .doBEnd) (.tok .kwDo :: b ++ [.tok .kwEnd]), X) := by
  have k1 := optBlock_comp H hb (by omega) (t := .kwEnd) X rfl
  simp [simpleStatP, k1]

theorem whileP_comp {e : C} {b : List C} (he : Derives .opExp e) (hb : b = [] ∨ ∃ x, b = [x] ∧ Derives .block x)
    (hf : 32 * (e.yield.length + (Cst.yields b).length) + 26 ≤ f) (X : List Token) :
    simpleStatP rec (.kwWhile :: (e.yield ++ .kwDo :: (Cst.yields b ++ .kwEnd :: X))) =
      some (.node (if b.isEmpty then .whileDo else .whileDoB) ([.tok .kwWhile, e, .tok .kwDo] ++ b ++ [.tok .kwEnd]), X) := by
  have k1 := H.nt he (by decide) (by simp only [rank]; omega) .kwDo (Cst.yields b ++ .kwEnd :: X) rfl
  have k2 := optBlock_comp H hb (by omega) (t := .kwEnd) X rfl
  simp [simpleStatP, k1, k2]

theorem funcNameP_comp {c : C} (h : Derives .funcName c) (hf : 32 * c.yield.length + 3 ≤ f + 1) (t : Token) (X : List Token)
    (ht : fol .funcName t = true) : funcNameP rec (c.yield ++ t :: X) = some (c, t :: X) := by
  simp only [fol, decide_eq_true_eq] at ht
  subst ht
  rcases inv_funcName h with ⟨x, xs, rfl, h1, h2⟩ | ⟨x1, x3, rfl, h1, h3⟩
  · simp only [Cst.yield, Cst.yields, List.length_append, List.append_assoc] at hf ⊢
    have l := len_pos h1
    have k1 := H.sepTail h2 (by decide) rfl (by omega) .openRound X (by decide) rfl
    simp [funcNameP, nameP_comp h1, k1]
  · obtain ⟨x, xs, rfl, h1, h2⟩ := inv_funcNameItems h1
    simp only [Cst.yield, Cst.yields, List.length_append, List.append_assoc, List.append_nil, List.cons_append,
      List.length_cons, List.nil_append] at hf ⊢
    have k1 := H.sepTail h2 (by decide) rfl (by omega) .colon (x3.yield ++ .openRound :: X) (by decide) rfl
    simp [funcNameP, nameP_comp h1, nameP_comp h3, k1]

theorem funcDeclP_comp {n b : C} (hn : Derives .funcName n) (hb : Derives .funcBody b)
    (hf : 32 * (n.yield.length + b.yield.length) + 3 ≤ f) (t : Token) (X : List Token) :
    funcDeclP rec (.kwFunction :: (n.yield ++ (b.yield ++ t :: X))) =
      some (.node .funcDecl [.tok .kwFunction, n, b], t :: X) := by
  have k2 := H.nt hb (by decide) (by simp only [rank]; omega) t X rfl
  obtain ⟨u, us, hu, hk⟩ := derives_first hb
  have : u = .openRound := by cases u <;> simp [Token.kind, firstToks] at hk <;> rfl
  subst this
  have k1 := H.nt hn (by decide) (by simp only [rank]; omega) .openRound (us ++ t :: X) rfl
  simp only [hu, List.cons_append] at k2 ⊢
  simp [funcDeclP, k1, k2]

theorem funcBodyP_none {b : List C} (hb : b = [] ∨ ∃ x, b = [x] ∧ Derives .block x)
    (hf : 32 * (Cst.yields b).length + 26 ≤ f) (X : List Token) :
    funcBodyP rec (.openRound :: .closeRound :: (Cst.yields b ++ .kwEnd :: X)) =
      some (.node (if b.isEmpty then .funcBody else .funcBodyB)
      ([.tok .openRound, .tok .closeRound] ++ b ++ [.tok .kwEnd]), X) := by
  have k1 := optBlock_comp H hb (by omega) (t := .kwEnd) X rfl
  simp [funcBodyP, k1]

theorem funcBodyP_par {q : C} {qs b : List C} (hq : Derives .par q) (hqs : STail .par .comma qs)
    (hb : b = [] ∨ ∃ x, b = [x] ∧ Derives .block x)
    (hf : 32 * (q.yield.length + (Cst.yields qs).length + (Cst.yields b).length) + 26 ≤ f) (X : List Token) :
    funcBodyP rec (.openRound :: (q.yield ++ (Cst.yields qs ++ .closeRound :: (Cst.yields b ++ .kwEnd :: X)))) =
      some (.node (if b.isEmpty then .funcPBody else .funcPBodyB)
      ([.tok .openRound, .node (.parList []) (q :: qs), .tok .closeRound] ++ b ++ [.tok .kwEnd]), X) := by
  have k1 : rec (.nt .par) (q.yield ++ (Cst.yields qs ++ .closeRound :: (Cst.yields b ++ .kwEnd :: X))) =
      some ([q], Cst.yields qs ++ .closeRound :: (Cst.yields b ++ .kwEnd :: X)) := by
    cases hqs with
    | nil => exact H.nt hq (by decide) (by simp only [rank]; omega) _ _ rfl
    | cons hd htl =>
      rename_i y ys
      have := H.nt hq (by decide) (by simp only [rank]; omega) .comma
        (y.yield ++ (Cst.yields ys ++ .closeRound :: (Cst.yields b ++ .kwEnd :: X))) rfl
      simpa [Cst.yields, Cst.yield] using this
  have k2 := H.sepTail hqs (by decide) rfl (by omega) .closeRound (Cst.yields b ++ .kwEnd :: X) (by decide) rfl
  have k3 := optBlock_comp H hb (by omega) (t := .kwEnd) X rfl
  obtain ⟨u, us, hu, hk⟩ := derives_first hq
  have : u ≠ .closeRound := by rintro rfl; simp [Token.kind, firstToks] at hk
  simp only [hu, List.cons_append] at k1 ⊢
  simp [funcBodyP, k1, k2, k3, this]

theorem funcBodyP_comp {c : C} (h : Derives .funcBody c) (hf : 32 * c.yield.length + 3 ≤ f + 1) (t : Token) (X : List Token) :
    funcBodyP rec (c.yield ++ t :: X) = some (c, t :: X) := by
  rcases inv_funcBody h with rfl | ⟨x, rfl, h1⟩ | ⟨x, rfl, h1⟩ | ⟨x, y, rfl, h1, h2⟩
  · simp [Cst.yield, Cst.yields] at hf
    have := funcBodyP_none H (b := []) (.inl rfl) (by simp [Cst.yields]; omega) (t :: X)
    simpa [Cst.yields, Cst.yield] using this
  · simp [Cst.yield, Cst.yields] at hf
    have := funcBodyP_none H (b := [x]) (.inr ⟨x, rfl, h1⟩) (by simp [Cst.yields]; omega) (t :: X)
    simpa [Cst.yields, Cst.yield] using this
  · obtain ⟨q, qs, rfl, hq, hqs⟩ := inv_parList h1
    simp [Cst.yield, Cst.yields] at hf
    have := funcBodyP_par H (b := []) hq hqs (.inl rfl) (by simp [Cst.yields]; omega) (t :: X)
    simpa [Cst.yields, Cst.yield] using this
  · obtain ⟨q, qs, rfl, hq, hqs⟩ := inv_parList h1
    simp [Cst.yield, Cst.yields] at hf
    have := funcBodyP_par H (b := [y]) hq hqs (.inr ⟨y, rfl, h2⟩) (by simp [Cst.yields]; omega) (t :: X)
    simpa [Cst.yields, Cst.yield] using this

/-- The statements that may end in a parenthesis. -/
theorem statCoreP_may {c : C} (h : Derives .statMayEndsPar c) (hf : 32 * c.yield.length + 23 ≤ f + 1) {t : Token} (X : List Token)
    (ht : folStat t = true) : statCoreP rec (c.yield ++ t :: X) = some (c, t :: X) ∧ isNoPar c = false := by
  rcases inv_statMayEndsPar h with h | ⟨x1, x3, rfl, h1, h3⟩ | ⟨x2, x4, rfl, h2, h4⟩ | ⟨x3, rfl, h3⟩ | ⟨x2, x4, rfl, h2, h4⟩
  · obtain ⟨x, l, rfl, h1, h2⟩ := inv_functionCallNoStartsMayEndsPar h
    obtain ⟨ss, rfl, hm⟩ := inv_varSuffixList h2
    refine ⟨?_, rfl⟩
    have l1 := len_pos h1
    simp only [Cst.yield, Cst.yields, List.length_append, List.append_nil, List.append_assoc] at hf ⊢
    have := nameStatP_call H h1 hm.all hm.ne (by omega) X ht
    obtain ⟨s, hs⟩ := name_yield h1
    simp only [hs, List.cons_append, List.nil_append] at this ⊢
    simpa [statCoreP] using this
  · refine ⟨?_, rfl⟩
    have main : ∀ {v : C} {vs : List C}, Derives .varNoExp v → STail .varMayExp .comma vs →
        32 * (v.yield.length + (Cst.yields vs).length + x3.yield.length) + 23 ≤ f →
        statCoreP rec (v.yield ++ (Cst.yields vs ++ .equalsSign :: (x3.yield ++ t :: X))) =
        some (.node .varsExprs [.node (.varList []) (v :: vs), .tok .equalsSign, x3], t :: X) := by
      intro v vs hv hvs hl
      have := nameStatP_assign H hv hvs h3 hl X ht
      obtain ⟨u, us, hu, hk⟩ := derives_first hv
      have : ∃ s, u = .variable s := by cases u <;> simp [Token.kind, firstToks] at hk; exact ⟨_, rfl⟩
      obtain ⟨s, rfl⟩ := this
      simp only [hu, List.cons_append] at this ⊢
      simpa [statCoreP] using this
    rcases inv_varListNoStartPar h1 with ⟨v, rfl, hv⟩ | ⟨v, y, ys, rfl, hv, hy, hys⟩
    · simp [Cst.yield, Cst.yields] at hf
      have := main (vs := []) hv .nil (by simp [Cst.yields]; omega)
      simpa [Cst.yields, Cst.yield] using this
    · simp [Cst.yield, Cst.yields] at hf
      have := main (vs := .tok .comma :: y :: ys) hv (.cons hy hys) (by simp [Cst.yields, Cst.yield]; omega)
      simpa [Cst.yields, Cst.yield] using this
  · refine ⟨?_, rfl⟩
    simp [Cst.yield, Cst.yields] at hf
    have := repeatP_comp H (b := [x2]) (.inr ⟨x2, rfl, h2⟩) h4 (by simp [Cst.yields]; omega) X ht
    simpa [Cst.yields, Cst.yield, statCoreP] using this
  · refine ⟨?_, rfl⟩
    simp [Cst.yield, Cst.yields] at hf
    have := repeatP_comp H (b := []) (.inl rfl) h3 (by simp [Cst.yields]; omega) X ht
    simpa [Cst.yields, Cst.yield, statCoreP] using this
  · refine ⟨?_, rfl⟩
    obtain ⟨n, ns, rfl, hn, hns⟩ := inv_nameList h2
    simp [Cst.yield, Cst.yields] at hf
    have := localP_assign H hn hns h4 (by omega) X ht
    simpa [Cst.yields, Cst.yield, statCoreP] using this

omit H in
theorem inv_vec {x : C} (h : Derives .elseIfThenVec x) : ∃ v : List C, x = .node .elseIfThenVec v ∧
    (∀ c ∈ v, Derives .elseIfThen c) ∧ v.isEmpty = false := by
  obtain ⟨v, rfl, hv⟩ := inv_elseIfThenVec h
  refine ⟨v, rfl, hv.all, ?_⟩
  have := hv.ne
  cases v <;> simp_all

/-- The statements that may be followed by a parenthesis. -/
theorem statCoreP_no {c : C} (h : Derives .statNoPar c) (hf : 32 * c.yield.length + 23 ≤ f + 1) {t : Token} (X : List Token)
    (ht : folStat t = true ∨ t = .openRound) :
    statCoreP rec (c.yield ++ t :: X) = some (c, t :: X) ∧ isNoPar c = true := by
  have ifc {e : C} {b v : List C} {el : Option (List C)} (he : Derives .opExp e)
      (hb : b = [] ∨ ∃ x, b = [x] ∧ Derives .block x) (hv : ∀ c ∈ v, Derives .elseIfThen c)
      (hel : ∀ b2, el = some b2 → (b2 = [] ∨ ∃ x, b2 = [x] ∧ Derives .block x))
      (hl : 32 * (e.yield.length + (Cst.yields b).length + (Cst.yields v).length +
        (match el with | none => 0 | some b2 => (Cst.yields b2).length)) + 26 ≤ f) :=
    ifP_comp H he hb hv hel hl (t :: X)
  have nob : (([] : List C) = [] ∨ ∃ x, ([] : List C) = [x] ∧ Derives .block x) := .inl rfl
  have noel : ∀ b2 : List C, none = some b2 → (b2 = [] ∨ ∃ x, b2 = [x] ∧ Derives .block x) := by simp
  have el0 : ∀ b2 : List C, some [] = some b2 → (b2 = [] ∨ ∃ x, b2 = [x] ∧ Derives .block x) := by
    intro b2 h; cases h; exact .inl rfl
  have el1 {y : C} (hy : Derives .block y) : ∀ b2 : List C, some [y] = some b2 → (b2 = [] ∨ ∃ x, b2 = [x] ∧ Derives .block x) := by
    intro b2 h; cases h; exact .inr ⟨y, rfl, hy⟩
  have nov : ∀ c ∈ ([] : List C), Derives .elseIfThen c := by simp
  rcases inv_statNoPar h with h | rfl | rfl | ⟨x2, rfl, h2⟩ | rfl | ⟨x2, rfl, h2⟩ | ⟨x2, rfl, h2⟩ | ⟨x2, x4, rfl, h2, h4⟩ |
    ⟨x2, rfl, h2⟩ | ⟨x2, x4, rfl, h2, h4⟩ | ⟨x2, rfl, h2⟩ | ⟨x2, x4, rfl, h2, h4⟩ | ⟨x2, x5, rfl, h2, h5⟩ |
    ⟨x2, x4, x6, rfl, h2, h4, h6⟩ | ⟨x2, x4, rfl, h2, h4⟩ | ⟨x2, x4, x5, rfl, h2, h4, h5⟩ | ⟨x2, x4, rfl, h2, h4⟩ |
    ⟨x2, x4, x5, rfl, h2, h4, h5⟩ | ⟨x2, x4, x6, rfl, h2, h4, h6⟩ | ⟨x2, x4, x5, x7, rfl, h2, h4, h5, h7⟩ |
    ⟨x2, x4, x6, rfl, h2, h4, h6⟩ | ⟨x2, x4, x6, x8, rfl, h2, h4, h6, h8⟩ | ⟨x2, x4, x6, x8, rfl, h2, h4, h6, h8⟩ |
    ⟨x2, x4, x6, x8, x10, rfl, h2, h4, h6, h8, h10⟩ | ⟨x2, x4, rfl, h2, h4⟩ | ⟨x2, x4, x6, rfl, h2, h4, h6⟩ |
    ⟨x2, x3, rfl, h2, h3⟩ | ⟨x3, x4, rfl, h3, h4⟩ | ⟨x2, rfl, h2⟩
  · obtain ⟨n, rfl, hn⟩ := inv_label h
    refine ⟨?_, rfl⟩
    simp [Cst.yield, Cst.yields, statCoreP, simpleStatP, nameP_comp hn]
  · exact ⟨rfl, rfl⟩
  · exact ⟨rfl, rfl⟩
  · refine ⟨?_, rfl⟩
    simp [Cst.yield, Cst.yields, statCoreP, simpleStatP, nameP_comp h2]
  · refine ⟨?_, rfl⟩
    simp [Cst.yield, Cst.yields] at hf
    have := doP_comp H nob (by simp [Cst.yields]; omega) (t :: X)
    simpa [Cst.yields, Cst.yield, statCoreP] using this
  · refine ⟨?_, rfl⟩
    simp [Cst.yield, Cst.yields] at hf
    have := doP_comp H (b := [x2]) (.inr ⟨_, rfl, h2⟩) (by simp [Cst.yields]; omega) (t :: X)
    simpa [Cst.yields, Cst.yield, statCoreP] using this
  · refine ⟨?_, rfl⟩
    simp [Cst.yield, Cst.yields] at hf
    have := whileP_comp H h2 nob (by simp [Cst.yields]; omega) (t :: X)
    simpa [Cst.yields, Cst.yield, statCoreP] using this
  · refine ⟨?_, rfl⟩
    simp [Cst.yield, Cst.yields] at hf
    have := whileP_comp H (b := [x4]) h2 (.inr ⟨_, rfl, h4⟩) (by simp [Cst.yields]; omega) (t :: X)
    simpa [Cst.yields, Cst.yield, statCoreP] using this
  -- if
  · refine ⟨?_, rfl⟩
    simp [Cst.yield, Cst.yields] at hf
    have := ifc h2 nob nov noel (by simp [Cst.yields]; omega)
    simpa [Cst.yields, Cst.yield, statCoreP, ifTag] using this
  · refine ⟨?_, rfl⟩
    simp [Cst.yield, Cst.yields] at hf
    have := ifc (b := [x4]) h2 (.inr ⟨_, rfl, h4⟩) nov noel (by simp [Cst.yields]; omega)
    simpa [Cst.yields, Cst.yield, statCoreP, ifTag] using this
  · refine ⟨?_, rfl⟩
    simp [Cst.yield, Cst.yields] at hf
    have := ifc h2 nob nov el0 (by simp [Cst.yields]; omega)
    simpa [Cst.yields, Cst.yield, statCoreP, ifTag] using this
  · refine ⟨?_, rfl⟩
    simp [Cst.yield, Cst.yields] at hf
    have := ifc (b := [x4]) h2 (.inr ⟨_, rfl, h4⟩) nov el0 (by simp [Cst.yields]; omega)
    simpa [Cst.yields, Cst.yield, statCoreP, ifTag] using this
  · refine ⟨?_, rfl⟩
    simp [Cst.yield, Cst.yields] at hf
    have := ifc h2 nob nov (el1 h5) (by simp [Cst.yields]; omega)
    simpa [Cst.yields, Cst.yield, statCoreP, ifTag] using this
  · refine ⟨?_, rfl⟩
    simp [Cst.yield, Cst.yields] at hf
    have := ifc (b := [x4]) h2 (.inr ⟨_, rfl, h4⟩) nov (el1 h6) (by simp [Cst.yields]; omega)
    simpa [Cst.yields, Cst.yield, statCoreP, ifTag] using this
  · refine ⟨?_, rfl⟩
    obtain ⟨v, rfl, hv, hne⟩ := inv_vec h4
    simp [Cst.yield, Cst.yields] at hf
    have := ifc h2 nob hv noel (by simp [Cst.yields]; omega)
    simpa [Cst.yields, Cst.yield, statCoreP, ifTag, hne] using this
  · refine ⟨?_, rfl⟩
    obtain ⟨v, rfl, hv, hne⟩ := inv_vec h5
    simp [Cst.yield, Cst.yields] at hf
    have := ifc (b := [x4]) h2 (.inr ⟨_, rfl, h4⟩) hv noel (by simp [Cst.yields]; omega)
    simpa [Cst.yields, Cst.yield, statCoreP, ifTag, hne] using this
  · refine ⟨?_, rfl⟩
    obtain ⟨v, rfl, hv, hne⟩ := inv_vec h4
    simp [Cst.yield, Cst.yields] at hf
    have := ifc h2 nob hv el0 (by simp [Cst.yields]; omega)
    simpa [Cst.yields, Cst.yield, statCoreP, ifTag, hne] using this
  · refine ⟨?_, rfl⟩
    obtain ⟨v, rfl, hv, hne⟩ := inv_vec h5
    simp [Cst.yield, Cst.yields] at hf
    have := ifc (b := [x4]) h2 (.inr ⟨_, rfl, h4⟩) hv el0 (by simp [Cst.yields]; omega)
    simpa [Cst.yields, Cst.yield, statCoreP, ifTag, hne] using this
  · refine ⟨?_, rfl⟩
    obtain ⟨v, rfl, hv, hne⟩ := inv_vec h4
    simp [Cst.yield, Cst.yields] at hf
    have := ifc h2 nob hv (el1 h6) (by simp [Cst.yields]; omega)
    simpa [Cst.yields, Cst.yield, statCoreP, ifTag, hne] using this
  · refine ⟨?_, rfl⟩
    obtain ⟨v, rfl, hv, hne⟩ := inv_vec h5
    simp [Cst.yield, Cst.yields] at hf
    have := ifc (b := [x4]) h2 (.inr ⟨_, rfl, h4⟩) hv (el1 h7) (by simp [Cst.yields]; omega)
    simpa [Cst.yields, Cst.yield, statCoreP, ifTag, hne] using this
  -- for
  · refine ⟨?_, rfl⟩
    simp [Cst.yield, Cst.yields] at hf
    have := forP_int H h2 h4 h6 nob (by simp [Cst.yields]; omega) (t :: X)
    simpa [Cst.yields, Cst.yield, statCoreP] using this
  · refine ⟨?_, rfl⟩
    simp [Cst.yield, Cst.yields] at hf
    have := forP_int H (b := [x8]) h2 h4 h6 (.inr ⟨_, rfl, h8⟩) (by simp [Cst.yields]; omega) (t :: X)
    simpa [Cst.yields, Cst.yield, statCoreP] using this
  · refine ⟨?_, rfl⟩
    simp [Cst.yield, Cst.yields] at hf
    have := forP_step H h2 h4 h6 h8 nob (by simp [Cst.yields]; omega) (t :: X)
    simpa [Cst.yields, Cst.yield, statCoreP] using this
  · refine ⟨?_, rfl⟩
    simp [Cst.yield, Cst.yields] at hf
    have := forP_step H (b := [x10]) h2 h4 h6 h8 (.inr ⟨_, rfl, h10⟩) (by simp [Cst.yields]; omega) (t :: X)
    simpa [Cst.yields, Cst.yield, statCoreP] using this
  · refine ⟨?_, rfl⟩
    obtain ⟨n, ns, rfl, hn, hns⟩ := inv_nameList h2
    simp [Cst.yield, Cst.yields] at hf
    have := forP_range H hn hns h4 nob (by simp [Cst.yields]; omega) (t :: X)
    simpa [Cst.yields, Cst.yield, statCoreP] using this
  · refine ⟨?_, rfl⟩
    obtain ⟨n, ns, rfl, hn, hns⟩ := inv_nameList h2
    simp [Cst.yield, Cst.yields] at hf
    have := forP_range H (b := [x6]) hn hns h4 (.inr ⟨_, rfl, h6⟩) (by simp [Cst.yields]; omega) (t :: X)
    simpa [Cst.yields, Cst.yield, statCoreP] using this
  -- functions and locals
  · refine ⟨?_, rfl⟩
    simp [Cst.yield, Cst.yields] at hf
    have := funcDeclP_comp H h2 h3 (by omega) t X
    simpa [Cst.yields, Cst.yield, statCoreP] using this
  · refine ⟨?_, rfl⟩
    simp [Cst.yield, Cst.yields] at hf
    have := localP_func H h3 h4 (by omega) t X
    simpa [Cst.yields, Cst.yield, statCoreP] using this
  · refine ⟨?_, rfl⟩
    obtain ⟨n, ns, rfl, hn, hns⟩ := inv_nameList h2
    simp [Cst.yield, Cst.yields] at hf
    have := localP_names H hn hns (by omega) X ht
    simpa [Cst.yields, Cst.yield, statCoreP] using this

theorem statP_comp {c : C} (h : Derives .stat c) (hf : 32 * c.yield.length + 23 ≤ f + 1) {t : Token} (X : List Token)
    (ht : fol .stat t = true) : statP rec (c.yield ++ t :: X) = some (c, t :: X) := by
  have hne : t ≠ .openRound := by rintro rfl; cases ht
  rcases inv_stat h with h | h | ⟨x1, x2, rfl, h1, h2⟩
  · obtain ⟨k1, k2⟩ := statCoreP_no H h hf X (.inl ht)
    simp [statP, k1, hne]
  · obtain ⟨k1, k2⟩ := statCoreP_may H h hf X ht
    simp [statP, k1, k2]
  · simp only [Cst.yield, Cst.yields, List.append_nil, List.length_append, List.append_assoc] at hf ⊢
    have l1 := len_pos h1
    obtain ⟨u, us, hu, hk⟩ := derives_first h2
    have : u = .openRound := by cases u <;> simp [Token.kind, firstToks] at hk <;> rfl
    subst this
    obtain ⟨k1, k2⟩ := statCoreP_no H h1 (by omega) (us ++ t :: X) (.inr rfl)
    have k3 := H.nt h2 (by decide) (by simp only [rank]; omega) t X ht
    simp only [hu, List.cons_append] at k3 ⊢
    simp [statP, k1, k2, k3]

/-- A parenthesised expression with suffixes. -/
theorem parStatP_comp {c : C} (h : Derives .statStartsMayEndsPar c) (hf : 32 * c.yield.length + 22 ≤ f + 1) {t : Token}
    (X : List Token) (ht : fol .statStartsMayEndsPar t = true) : parStatP rec (c.yield ++ t :: X) = some (c, t :: X) := by
  replace ht : folStat t = true := ht
  have n1 : t ≠ .equalsSign := by rintro rfl; cases ht
  have n2 : t ≠ .comma := by rintro rfl; cases ht
  rcases inv_statStartsMayEndsPar h with h | ⟨x1, x3, rfl, h1, h3⟩
  · rcases inv_functionCallStartsMayEndsPar h with ⟨e, rfl, he⟩ | ⟨e, l, rfl, he, hl⟩
    · simp [Cst.yield, Cst.yields] at hf
      have k1 := H.nt he (by decide) (by simp only [rank]; omega) .closeRound (t :: X) rfl
      have k2 := H.suffixes (cs := []) (by simp) (by simp [Cst.yields]; omega) t X (folStat_suffix ht)
      simp [Cst.yields] at k2
      simp [Cst.yield, Cst.yields, parStatP, k1, k2]
    · obtain ⟨ss, rfl, hm⟩ := inv_varSuffixList hl
      simp [Cst.yield, Cst.yields] at hf
      have k1 := H.nt he (by decide) (by simp only [rank]; omega) .closeRound (Cst.yields ss ++ t :: X) rfl
      have k2 := H.suffixes hm.all (by omega) t X (folStat_suffix ht)
      simp [Cst.yield, Cst.yields, parStatP, k1, k2, n1, n2, hm.ne]
  · have main : ∀ {e : C} {ss vs : List C}, Derives .opExp e → Many .varSuffix ss → STail .varMayExp .comma vs →
        32 * (e.yield.length + (Cst.yields ss).length + (Cst.yields vs).length + x3.yield.length) + 22 ≤ f →
        parStatP rec (.openRound :: (e.yield ++ .closeRound :: (Cst.yields ss ++ (Cst.yields vs ++ .equalsSign ::
          (x3.yield ++ t :: X))))) =
        some (.node .varsExprs [if vs.isEmpty then .node .varRoundSuffix [.tok .openRound, e, .tok .closeRound, .node .varSuffixList ss]
          else .node (.varList []) (.node .varRoundSuffix [.tok .openRound, e, .tok .closeRound, .node .varSuffixList ss] :: vs),
          .tok .equalsSign, x3], t :: X) := by
      intro e ss vs he hss hvs hl
      have k1 := H.nt he (by decide) (by simp only [rank]; omega) .closeRound (Cst.yields ss ++ (Cst.yields vs ++ .equalsSign ::
          (x3.yield ++ t :: X))) rfl
      have k3 := H.sepTail hvs (by decide) rfl (by omega) .equalsSign (x3.yield ++ t :: X) (by decide) rfl
      have k4 := H.nt h3 (by decide) (by simp only [rank]; omega) t X (folStat_expList ht)
      cases hvs with
      | nil =>
        have k2 := H.suffixes hss.all (by omega) .equalsSign (x3.yield ++ t :: X) rfl
        simp only [Cst.yields, List.nil_append] at k1 k3 ⊢
        simp [parStatP, k1, k2, k3, k4, hss.ne]
      | cons hd htl =>
        rename_i y ys
        have k2 := H.suffixes hss.all (by omega) .comma (y.yield ++ (Cst.yields ys ++ .equalsSign :: (x3.yield ++ t :: X))) rfl
        simp only [Cst.yields, Cst.yield, List.nil_append, List.cons_append, List.append_assoc] at k1 k3 ⊢
        simp [parStatP, k1, k2, k3, k4, hss.ne]
    have vexp {v : C} (hv : Derives .varExp v) : ∃ e ss, v = .node .varRoundSuffix [.tok .openRound, e, .tok .closeRound, .node .varSuffixList ss] ∧
        Derives .opExp e ∧ Many .varSuffix ss := by
      obtain ⟨e, l, rfl, he, hl⟩ := inv_varExp hv
      obtain ⟨ss, rfl, hm⟩ := inv_varSuffixList hl
      exact ⟨e, ss, rfl, he, hm⟩
    rcases inv_varListStartsPar h1 with hv | ⟨v, y, ys, rfl, hv, hy, hys⟩
    · obtain ⟨e, ss, rfl, he, hm⟩ := vexp hv
      simp [Cst.yield, Cst.yields] at hf
      have := main he hm .nil (by simp [Cst.yields]; omega)
      simpa [Cst.yield, Cst.yields] using this
    · obtain ⟨e, ss, rfl, he, hm⟩ := vexp hv
      simp [Cst.yield, Cst.yields] at hf
      have := main he hm (.cons hy hys) (by simp [Cst.yields, Cst.yield]; omega)
      simpa [Cst.yield, Cst.yields] using this

theorem retStatP_comp {c : C} (h : Derives .retStat c) (hf : 32 * c.yield.length + 22 ≤ f + 1) {t : Token}
    (X : List Token) (ht : fol .retStat t = true) : retStatP rec (c.yield ++ t :: X) = some (c, t :: X) := by
  replace ht : endsBlock t = true := ht
  have n1 : t ≠ .semicolon := by rintro rfl; cases ht
  have n2 : startsExp t = false := by cases t <;> first | rfl | (simp [endsBlock] at ht)
  rcases inv_retStat h with rfl | ⟨e, rfl, he⟩ | rfl | ⟨e, rfl, he⟩
  · simp [Cst.yield, Cst.yields, retStatP, n1, n2]
  · simp [Cst.yield, Cst.yields] at hf
    have k1 := H.nt he (by decide) (by simp only [rank]; omega) t X (folStat_expList (endsBlock_stat ht))
    obtain ⟨u, us, hu, hs⟩ := starts_exp he
    simp only [hu, List.cons_append] at k1
    simp [Cst.yield, Cst.yields, retStatP, n1, hu, hs, k1]
  · simp [Cst.yield, Cst.yields, retStatP, startsExp]
  · simp [Cst.yield, Cst.yields] at hf
    have k1 := H.nt he (by decide) (by simp only [rank]; omega) .semicolon (t :: X) rfl
    obtain ⟨u, us, hu, hs⟩ := starts_exp he
    simp only [hu, List.cons_append] at k1
    simp [Cst.yield, Cst.yields, retStatP, hu, hs, k1]

theorem sepTailP_comp {n : NT} {tok : Token} {cs : List C} (h : STail n tok cs) (hr : 0 < rank n) (hr' : rank n ≤ 31)
    (hn : fol n tok = true)
    (hf : 32 * (Cst.yields cs).length + 1 ≤ f + 1) {t : Token} (X : List Token) (ht : t ≠ tok) (htn : fol n t = true) :
    sepTailP rec n tok (Cst.yields cs ++ t :: X) = some (cs, t :: X) := by
  cases h with
  | nil => simp [sepTailP, Cst.yields, ht]
  | cons hd htl =>
    rename_i y ys
    simp [Cst.yield, Cst.yields] at hf
    have l := len_pos hd
    have k2 := H.sepTail htl hr hn (by omega) t X ht htn
    have k1 : rec (.nt n) (y.yield ++ (Cst.yields ys ++ t :: X)) = some ([y], Cst.yields ys ++ t :: X) := by
      cases htl with
      | nil => exact H.nt hd hr (by omega) t X htn
      | cons hd' htl' =>
        rename_i z zs
        simpa [Cst.yield, Cst.yields] using H.nt hd hr (by omega) tok (z.yield ++ (Cst.yields zs ++ t :: X)) hn
    simp [sepTailP, Cst.yields, Cst.yield, k1, k2]

theorem expListP_comp {c : C} (h : Derives .expList c) (hf : 32 * c.yield.length + 22 ≤ f + 1) {t : Token}
    (X : List Token) (ht : fol .expList t = true) : expListP rec (c.yield ++ t :: X) = some (c, t :: X) := by
  obtain ⟨e, es, rfl, he, hes⟩ := inv_expList h
  have n1 : t ≠ .comma := by rintro rfl; cases ht
  have n2 : fol .opExp t = true := by
    simp only [fol, Bool.and_eq_true] at ht ⊢; exact ht.1
  simp [Cst.yield, Cst.yields] at hf
  have l := len_pos he
  have k2 := H.sepTail hes (by decide) rfl (by omega) t X n1 n2
  have k1 : rec (.nt .opExp) (e.yield ++ (Cst.yields es ++ t :: X)) = some ([e], Cst.yields es ++ t :: X) := by
    cases hes with
    | nil => exact H.nt he (by decide) (by simp only [rank]; omega) t X n2
    | cons hd' htl' =>
      rename_i z zs
      simpa [Cst.yield, Cst.yields] using H.nt he (by decide) (by simp only [rank]; omega) .comma (z.yield ++ (Cst.yields zs ++ t :: X)) rfl
  simp [expListP, Cst.yield, Cst.yields, k1, k2]

theorem suffixesP_comp {cs : List C} (h : ∀ c ∈ cs, Derives .varSuffix c) (hf : 32 * (Cst.yields cs).length + 6 ≤ f + 1)
    {t : Token} (X : List Token) (ht : startsSuffix t = false) :
    suffixesP rec (Cst.yields cs ++ t :: X) = some (cs, t :: X) := by
  cases cs with
  | nil => simp [suffixesP, Cst.yields, ht]
  | cons y ys =>
    simp [Cst.yields] at hf
    have hd := h y (by simp)
    have l := len_pos hd
    have hys : ∀ c ∈ ys, Derives .varSuffix c := fun c hc => h c (by simp [hc])
    have k2 := H.suffixes hys (by omega) t X ht
    have k1 : rec (.nt .varSuffix) (y.yield ++ (Cst.yields ys ++ t :: X)) = some ([y], Cst.yields ys ++ t :: X) := by
      cases ys with
      | nil => exact H.nt hd (by decide) (by simp only [rank]; omega) t X rfl
      | cons z zs =>
        obtain ⟨u, us, hu, hs⟩ := starts_suffix (hys z (by simp))
        simpa [Cst.yields, hu] using H.nt hd (by decide) (by simp only [rank]; omega) u (us ++ (Cst.yields zs ++ t :: X)) rfl
    obtain ⟨u, us, hu, hs⟩ := starts_suffix hd
    simp only [hu, List.cons_append] at k1
    simp [suffixesP, Cst.yields, hu, hs, k1, k2]

omit H in
theorem stringP_comp {c : C} (h : Derives .stringLiteral c) (X : List Token) : stringP (c.yield ++ X) = some (c, X) := by
  rcases inv_stringLiteral h with ⟨s, rfl⟩ | ⟨s, rfl⟩ | ⟨l, s, rfl⟩ <;> rfl

omit H in
theorem fields_first {fs : List C} (h : FItems .field fs) : ∃ u us, Cst.yields fs = u :: us ∧ u ≠ .closeCurly := by
  have : ∃ f fs', fs = f :: fs' ∧ Derives .field f := by
    cases h with
    | last h => exact ⟨_, _, rfl, h⟩
    | trail h _ => exact ⟨_, _, rfl, h⟩
    | cons h _ _ => exact ⟨_, _, rfl, h⟩
  obtain ⟨f, fs', rfl, hd⟩ := this
  obtain ⟨u, us, hu, hk⟩ := derives_first hd
  refine ⟨u, us ++ Cst.yields fs', by simp [Cst.yields, hu], ?_⟩
  rintro rfl
  simp [Token.kind, firstToks] at hk

theorem tableP_comp {c : C} (h : Derives .tableConstructor c) (hf : 32 * c.yield.length + 3 ≤ f + 1) (t : Token)
    (X : List Token) : tableP rec (c.yield ++ t :: X) = some (c, t :: X) := by
  rcases inv_tableConstructor h with ⟨fl, rfl, hfl⟩ | rfl
  · obtain ⟨fs, rfl, hfs⟩ := inv_fieldList hfl
    simp [Cst.yield, Cst.yields] at hf
    have k1 := H.fieldItems hfs (by omega) (t :: X)
    obtain ⟨u, us, hu, hne⟩ := fields_first hfs
    simp only [hu, List.cons_append] at k1
    simp [tableP, Cst.yield, Cst.yields, hu, hne, k1]
  · simp [tableP, Cst.yield, Cst.yields]

theorem fieldItemsP_comp {cs : List C} (h : FItems .field cs) (hf : 32 * (Cst.yields cs).length + 23 ≤ f + 1)
    (X : List Token) : fieldItemsP rec (Cst.yields cs ++ .closeCurly :: X) = some (cs, .closeCurly :: X) := by
  cases h with
  | last hd =>
    simp [Cst.yields] at hf
    have k1 := H.nt hd (by decide) (by simp only [rank]; omega) .closeCurly X rfl
    simp [fieldItemsP, Cst.yields, k1, isFieldSep]
  | trail hd ht =>
    rename_i y tok
    simp [Cst.yields, Cst.yield] at hf
    have k1 := H.nt hd (by decide) (by simp only [rank]; omega) tok (.closeCurly :: X) (by simp [fol, ht])
    simp [fieldItemsP, Cst.yields, Cst.yield, k1, ht]
  | cons hd ht hfs =>
    rename_i y tok fs
    simp [Cst.yields, Cst.yield] at hf
    have l := len_pos hd
    have k1 := H.nt hd (by decide) (by simp only [rank]; omega) tok (Cst.yields fs ++ .closeCurly :: X) (by simp [fol, ht])
    have k2 := H.fieldItems hfs (by omega) X
    obtain ⟨u, us, hu, hne⟩ := fields_first hfs
    simp only [hu, List.cons_append] at k1 k2
    simp [fieldItemsP, Cst.yields, Cst.yield, k1, ht, hu, hne, k2]

theorem fieldP_comp {c : C} (h : Derives .field c) (hf : 32 * c.yield.length + 22 ≤ f + 1) {t : Token}
    (X : List Token) (ht : fol .field t = true) : fieldP rec (c.yield ++ t :: X) = some (c, t :: X) := by
  have ht' : t = .comma ∨ t = .semicolon ∨ t = .closeCurly := by
    simp only [fol, isFieldSep, Bool.or_eq_true, decide_eq_true_eq] at ht
    rcases ht with (h | h) | h <;> simp [h]
  have hte : fol .opExp t = true := by rcases ht' with rfl | rfl | rfl <;> rfl
  rcases inv_field h with ⟨x2, x5, rfl, h2, h5⟩ | ⟨x1, x3, rfl, h1, h3⟩ | ⟨x, rfl, hx⟩
  · simp [Cst.yield, Cst.yields] at hf
    have k1 := H.nt h2 (by decide) (by simp only [rank]; omega) .closeSquare (.equalsSign :: (x5.yield ++ t :: X)) rfl
    have k2 := H.nt h5 (by decide) (by simp only [rank]; omega) t X hte
    simp [fieldP, Cst.yield, Cst.yields, k1, k2]
  · obtain ⟨s, rfl⟩ := inv_name h1
    simp [Cst.yield, Cst.yields] at hf
    have k2 := H.nt h3 (by decide) (by simp only [rank]; omega) t X hte
    simp [fieldP, Cst.yield, Cst.yields, k2]
  · simp [Cst.yield, Cst.yields] at hf
    have k1 := H.nt hx (by decide) (by simp only [rank]; omega) t X hte
    simp only [Cst.yield, Cst.yields, List.append_nil]
    obtain ⟨u, us, hu, hk⟩ := derives_first hx
    have nsq : u ≠ .openSquare := by rintro rfl; simp [Token.kind, firstToks] at hk
    unfold fieldP
    split
    · rename_i heq
      rw [hu] at heq
      cases heq
      exact absurd rfl nsq
    · rename_i s ts heq
      -- the parser would have stopped after the name
      have hnm : Derives .opExp (.node (.name s) [.tok (.variable s)]) :=
        .chain (b := .op 0) (by decide) <| .chain (b := .op 1) (by decide) <| .chain (b := .op 2) (by decide) <|
        .chain (b := .op 3) (by decide) <| .chain (b := .op 4) (by decide) <| .chain (b := .op 5) (by decide) <|
        .chain (b := .op 6) (by decide) <| .chain (b := .op 7) (by decide) <| .chain (b := .op 8) (by decide) <|
        .chain (b := .op 9) (by decide) <| .chain (b := .op 10) (by decide) <| .chain (b := .op 11) (by decide) <|
        .chain (b := .exp) (by decide) <| .chain (b := .prefixMayStartsMayEndsPar) (by decide) <|
        .chain (b := .varMayExp) (by decide) <| .chain (b := .name) (by decide) <| .leaf rfl
      have l := len_pos hx
      have k2 := H.nt hnm (by decide) (by simp [rank, Cst.yield, Cst.yields]; omega) .equalsSign ts rfl
      simp only [Cst.yield, Cst.yields, List.append_nil, List.cons_append, List.nil_append] at k2
      rw [heq, k2] at k1
      cases k1
      rcases ht' with h | h | h <;> cases h
    · simp [k1]

theorem argsP_comp {c : C} (h : Derives .args c) (hf : 32 * c.yield.length + 4 ≤ f + 1) (t : Token)
    (X : List Token) : argsP rec (c.yield ++ t :: X) = some (c, t :: X) := by
  rcases inv_args h with h | h | ⟨e, rfl, he⟩ | rfl
  · have k1 := H.nt h (by decide) (by simp only [rank]; omega) t X rfl
    obtain ⟨u, us, hu, hk⟩ := derives_first h
    have : u = .openCurly := by cases u <;> simp [Token.kind, firstToks] at hk <;> rfl
    subst this
    simp only [hu, List.cons_append] at k1 ⊢
    simp [argsP, k1]
  · have k1 := stringP_comp h (t :: X)
    rcases inv_stringLiteral h with ⟨s, rfl⟩ | ⟨s, rfl⟩ | ⟨l, s, rfl⟩ <;> rfl
  · simp [Cst.yield, Cst.yields] at hf
    have k1 := H.nt he (by decide) (by simp only [rank]; omega) .closeRound (t :: X) rfl
    obtain ⟨u, us, hu, hs⟩ := starts_exp he
    have : u ≠ .closeRound := by rintro rfl; cases hs
    simp only [hu, List.cons_append] at k1
    simp [argsP, Cst.yield, Cst.yields, hu, this, k1]
  · simp [argsP, Cst.yield, Cst.yields]

theorem varSuffixP_comp {c : C} (h : Derives .varSuffix c) (hf : 32 * c.yield.length + 5 ≤ f + 1) (t : Token)
    (X : List Token) : varSuffixP rec (c.yield ++ t :: X) = some (c, t :: X) := by
  rcases inv_varSuffix h with h | ⟨e, rfl, he⟩ | ⟨n, rfl, hn⟩ | ⟨n, a, rfl, hn, ha⟩
  · have k1 := H.nt h (by decide) (by simp only [rank]; omega) t X rfl
    obtain ⟨u, us, hu, hk⟩ := derives_first h
    simp only [hu, List.cons_append] at k1 ⊢
    cases u <;> simp [Token.kind, firstToks] at hk <;> simp [varSuffixP, k1]
  · simp [Cst.yield, Cst.yields] at hf
    have k1 := H.nt he (by decide) (by simp only [rank]; omega) .closeSquare (t :: X) rfl
    simp [varSuffixP, Cst.yield, Cst.yields, k1]
  · simp [varSuffixP, Cst.yield, Cst.yields, nameP_comp hn]
  · simp [Cst.yield, Cst.yields] at hf
    have k1 := H.nt ha (by decide) (by simp only [rank]; omega) t X rfl
    simp [varSuffixP, Cst.yield, Cst.yields, nameP_comp hn, k1]

theorem prefixP_name {n : C} {ss : List C} (hn : Derives .name n) (hs : ∀ c ∈ ss, Derives .varSuffix c)
    (hf : 32 * (Cst.yields ss).length + 6 ≤ f) {t : Token} (X : List Token) (ht : startsSuffix t = false) :
    prefixP rec (n.yield ++ (Cst.yields ss ++ t :: X)) =
      some (if ss.isEmpty then n else .node .var [n, .node .varSuffixList ss], t :: X) := by
  have k1 := H.suffixes hs hf t X ht
  have k0 := nameP_comp hn
  obtain ⟨s, hs⟩ := name_yield hn
  simp only [hs, List.cons_append, List.nil_append] at k0 ⊢
  cases ss <;> simp [prefixP, k0, k1]

theorem prefixP_par {e : C} {ss : List C} (he : Derives .opExp e) (hs : ∀ c ∈ ss, Derives .varSuffix c)
    (hf : 32 * (e.yield.length + (Cst.yields ss).length) + 21 ≤ f) {t : Token} (X : List Token) (ht : startsSuffix t = false) :
    prefixP rec (.openRound :: (e.yield ++ .closeRound :: (Cst.yields ss ++ t :: X))) =
      some (if ss.isEmpty then .node .roundBrackets [.tok .openRound, e, .tok .closeRound]
        else .node .varRoundSuffix [.tok .openRound, e, .tok .closeRound, .node .varSuffixList ss], t :: X) := by
  have k1 := H.nt he (by decide) (by simp only [rank]; omega) .closeRound (Cst.yields ss ++ t :: X) rfl
  have k2 := H.suffixes hs (by omega) t X ht
  cases ss <;> simp [prefixP, k1, k2]

omit H in
theorem suffixList_shape {l : C} (h : Derives .varSuffixList l) : ∃ s ss, l = .node .varSuffixList (s :: ss) ∧
    ∀ c ∈ s :: ss, Derives .varSuffix c := by
  obtain ⟨ss, rfl, hm⟩ := inv_varSuffixList h
  have := hm.ne
  cases ss with
  | nil => exact absurd rfl this
  | cons s ss => exact ⟨s, ss, rfl, hm.all⟩

theorem prefixP_comp {c : C} (h : Derives .prefixMayStartsMayEndsPar c) (hf : 32 * c.yield.length + 7 ≤ f + 1) {t : Token}
    (X : List Token) (ht : fol .prefixMayStartsMayEndsPar t = true) : prefixP rec (c.yield ++ t :: X) = some (c, t :: X) := by
  replace ht : startsSuffix t = false := by simpa [fol] using ht
  rcases inv_prefixMayStartsMayEndsPar h with h | ⟨e, rfl, he⟩
  · rcases inv_varMayExp h with hn | ⟨n, l, rfl, hn, hl⟩ | ⟨e, l, rfl, he, hl⟩
    · have l := len_pos hn
      have := prefixP_name H (ss := []) hn (by simp) (by simp [Cst.yields]; omega) X ht
      simpa [Cst.yields] using this
    · obtain ⟨s, ss, rfl, hm⟩ := suffixList_shape hl
      have l := len_pos hn
      simp [Cst.yield, Cst.yields] at hf
      have := prefixP_name H hn hm (by simp [Cst.yields]; omega) X ht
      simpa [Cst.yield, Cst.yields] using this
    · obtain ⟨s, ss, rfl, hm⟩ := suffixList_shape hl
      simp [Cst.yield, Cst.yields] at hf
      have := prefixP_par H he hm (by simp [Cst.yields]; omega) X ht
      simpa [Cst.yield, Cst.yields] using this
  · simp [Cst.yield, Cst.yields] at hf
    have := prefixP_par H (ss := []) he (by simp) (by simp [Cst.yields]; omega) X ht
    simpa [Cst.yield, Cst.yields] using this

theorem varMayExpP_comp {c : C} (h : Derives .varMayExp c) (hf : 32 * c.yield.length + 8 ≤ f + 1) {t : Token}
    (X : List Token) (ht : fol .varMayExp t = true) : varMayExpP rec (c.yield ++ t :: X) = some (c, t :: X) := by
  have k1 := H.nt (n := .prefixMayStartsMayEndsPar) (.chain (by decide) h) (by decide) (by simp only [rank]; omega) t X ht
  simp only [varMayExpP, k1, one_single, Option.bind_eq_bind, Option.bind_some]
  rcases inv_varMayExp h with hn | ⟨n, l, rfl, hn, hl⟩ | ⟨e, l, rfl, he, hl⟩
  · obtain ⟨s, rfl⟩ := inv_name hn
    rfl
  · rfl
  · rfl

theorem expP_comp {c : C} (h : Derives .exp c) (hf : 32 * c.yield.length + 8 ≤ f + 1) {t : Token}
    (X : List Token) (ht : fol .exp t = true) : expP rec (c.yield ++ t :: X) = some (c, t :: X) := by
  rcases inv_exp h with h | h | h | h | rfl | rfl | rfl | rfl | ⟨s, rfl⟩
  · rcases inv_stringLiteral h with ⟨s, rfl⟩ | ⟨s, rfl⟩ | ⟨l, s, rfl⟩ <;> rfl
  · obtain ⟨b, rfl, hb⟩ := inv_functionDef h
    simp [Cst.yield, Cst.yields] at hf
    have k1 := H.nt hb (by decide) (by simp only [rank]; omega) t X rfl
    simp [expP, Cst.yield, Cst.yields, k1]
  · have k1 := H.nt h (by decide) (by simp only [rank]; omega) t X ht
    obtain ⟨u, us, hu, hk⟩ := derives_first h
    simp only [hu, List.cons_append] at k1 ⊢
    cases u <;> simp [Token.kind, firstToks] at hk <;> simp [expP, k1]
  · have k1 := H.nt h (by decide) (by simp only [rank]; omega) t X rfl
    obtain ⟨u, us, hu, hk⟩ := derives_first h
    have : u = .openCurly := by cases u <;> simp [Token.kind, firstToks] at hk <;> rfl
    subst this
    simp only [hu, List.cons_append] at k1 ⊢
    simp [expP, k1]
  all_goals rfl

omit H in
theorem parP_comp {c : C} (h : Derives .par c) (X : List Token) : parP (c.yield ++ X) = some (c, X) := by
  rcases inv_par h with h | rfl
  · obtain ⟨s, rfl⟩ := inv_name h
    rfl
  · rfl

omit H in
theorem fol_next {k : Nat} {t : Token} (hs : startsSuffix t = false) (hl : lvlBelow (k + 1) t = true) : fol (nextOp k) t = true := by
  unfold nextOp
  split
  · simp [fol, hs]
  · simp [fol, hs, hl]

omit H in
theorem fol_next_of {k : Nat} {t : Token} (h : fol (.op k) t = true) : fol (nextOp k) t = true := by
  simp only [fol, Bool.and_eq_true, Bool.not_eq_true'] at h
  refine fol_next h.1 ?_
  have := h.2
  unfold lvlBelow at this ⊢
  split
  · rename_i j s heq
    simp only [heq, decide_eq_true_eq] at this ⊢
    omega
  · rfl

omit H in
theorem fol_next_op {k : Nat} {t : Token} {s : Str} (h : binOp t = some (k, s)) : fol (nextOp k) t = true := by
  refine fol_next ?_ (by simp [lvlBelow, h])
  cases t <;> first | rfl | (simp [binOp] at h)

omit H in
theorem rank_next {k : Nat} (hk : k < 12) : 0 < rank (nextOp k) ∧ rank (nextOp k) + 1 ≤ 20 - k := by
  unfold nextOp
  split
  · subst_vars; decide
  · have : k + 1 < 12 := by omega
    simp only [rank, this, if_true]
    omega

theorem opP_comp {k : Nat} (hk : k < 12) {c : C} (h : Derives (.op k) c) (hf : 32 * c.yield.length + (20 - k) ≤ f + 1)
    {t : Token} (X : List Token) (ht : fol (.op k) t = true) : opP rec k (c.yield ++ t :: X) = some (c, t :: X) := by
  by_cases h10 : k = 10
  · subst h10
    have ht' : fol (.op 11) t = true := fol_next_of ht
    rcases inv_op10 h with h | ⟨e, rfl, he⟩ | ⟨e, rfl, he⟩ | ⟨e, rfl, he⟩ | ⟨e, rfl, he⟩
    · have k1 := H.nt h (by decide) (by simp [rank]; omega) t X ht'
      obtain ⟨u, us, hu, hk⟩ := derives_first h
      simp only [hu, List.cons_append] at k1 ⊢
      cases u <;> simp [Token.kind, firstToks] at hk <;> simp [opP, k1]
    · simp [Cst.yield, Cst.yields] at hf
      have k1 := H.nt he (by decide) (by simp [rank]; omega) t X ht
      simp [opP, Cst.yield, Cst.yields, k1]
    all_goals
      simp [Cst.yield, Cst.yields] at hf
      have k1 := H.nt he (by decide) (by simp [rank]; omega) t X ht'
      simp [opP, Cst.yield, Cst.yields, k1]
  · obtain ⟨e, ts, he, htl, hy⟩ := op_tail hk h10 h
    rw [hy, List.length_append] at hf
    rw [hy]
    have l := len_pos he
    obtain ⟨r1, r2⟩ := rank_next hk
    have k2 := H.opTail htl hk (by omega) t X ht
    have k1 : rec (.nt (nextOp k)) (e.yield ++ (ts ++ t :: X)) = some ([e], ts ++ t :: X) := by
      cases htl with
      | nil => exact H.nt he r1 (by omega) t X (fol_next_of ht)
      | cons hb hd htl' =>
        rename_i e' tok s ts'
        simpa using H.nt he r1 (by omega) tok (e'.yield ++ (ts' ++ t :: X)) (fol_next_op hb)
    simp [opP, h10, hk, k1, k2]

theorem opTailP_comp {k : Nat} (hk : k < 12) {acc c : C} {ts : List Token} (h : OTail k acc ts c)
    (hf : 32 * ts.length + 1 ≤ f + 1) {t : Token} (X : List Token) (ht : fol (.op k) t = true) :
    opTailP rec k acc (ts ++ t :: X) = some (c, t :: X) := by
  cases h with
  | nil =>
    simp only [fol, lvlBelow, Bool.and_eq_true] at ht
    simp only [opTailP, List.nil_append]
    split
    · rename_i j s heq
      have := ht.2
      simp only [heq, decide_eq_true_eq] at this
      rw [if_neg (by omega)]
    · rfl
  | cons hb hd htl =>
    rename_i e tok s ts'
    simp at hf
    have l := len_pos hd
    obtain ⟨r1, r2⟩ := rank_next hk
    have k2 := H.opTail htl hk (by omega) t X ht
    have k1 : rec (.nt (nextOp k)) (e.yield ++ (ts' ++ t :: X)) = some ([e], ts' ++ t :: X) := by
      cases htl with
      | nil => exact H.nt hd r1 (by omega) t X (fol_next_of ht)
      | cons hb' hd' htl' =>
        rename_i e' tok' s' ts''
        simpa using H.nt hd r1 (by omega) tok' (e'.yield ++ (ts'' ++ t :: X)) (fol_next_op hb')
    simp [opTailP, hb, k1, k2]

end

@[simp] theorem single1_some (c : C) (ts : List Token) : single1 (some (c, ts)) = some ([c], ts) := rfl

/-- One more level of the recursion. -/
theorem parseStep_comp {rec : Req → List Token → PRes} {f : Nat} (H : Comp rec f) : Comp (parseStep rec) (f + 1) where
  nt := by
    intro n c hd hr hf t X ht
    cases n with
    | block => simp [parseStep, blockP_comp H hd hf X ht]
    | stats => simp [parseStep, statsP_comp H hd hf X ht]
    | stat => simp [parseStep, statP_comp H hd hf X ht]
    | statStartsMayEndsPar => simp [parseStep, parStatP_comp H hd hf X ht]
    | retStat => simp [parseStep, retStatP_comp H hd hf X ht]
    | funcName => simp [parseStep, funcNameP_comp H hd hf t X ht]
    | funcBody => simp [parseStep, funcBodyP_comp H hd hf t X]
    | expList => simp [parseStep, expListP_comp H hd hf X ht]
    | tableConstructor => simp [parseStep, tableP_comp H hd hf t X]
    | field => simp [parseStep, fieldP_comp H hd hf X ht]
    | args => simp [parseStep, argsP_comp H hd hf t X]
    | varSuffix => simp [parseStep, varSuffixP_comp H hd hf t X]
    | prefixMayStartsMayEndsPar => simp [parseStep, prefixP_comp H hd hf X ht]
    | varMayExp => simp [parseStep, varMayExpP_comp H hd hf X ht]
    | exp => simp [parseStep, expP_comp H hd hf X ht]
    | par => simp [parseStep, parP_comp hd]
    | name => simp [parseStep, nameP_comp hd]
    | opExp =>
      simp only [rank] at hf
      have hd' : Derives (.op 0) c := inv_opExp hd
      have := H.nt hd' (by decide) (by simp [rank]; omega) t X (by
        simp only [fol, Bool.and_eq_true] at ht ⊢
        refine ⟨ht.1, ?_⟩
        have := ht.2
        unfold lvlBelow
        cases hb : binOp t <;> simp_all)
      simpa [parseStep] using this
    | op k =>
      by_cases hk : k < 12
      · simp only [rank, hk, if_true] at hf
        simp [parseStep, opP_comp H hk hd hf X ht]
      · simp [rank, hk] at hr
    | _ => simp [rank] at hr
  statList := fun h hf t X ht => statListP_comp H h hf X ht
  elseIfs := fun h hf t X ht => elseIfsP_comp H h hf X ht
  suffixes := fun h hf t X ht => suffixesP_comp H h hf X ht
  sepTail := fun {n} _ _ h hr hn hf t X ht htn => sepTailP_comp H h hr (by
    cases n <;> simp [rank]; split <;> omega) hn hf X ht htn
  fieldItems := fun h hf X => fieldItemsP_comp H h hf X
  opTail := fun h hk hf t X ht => by simp [parseStep, opTailP_comp H hk h hf X ht]

theorem parseReq_comp : ∀ f : Nat, Comp (parseReq f) f
  | 0 => by
    constructor
    · intro n c hd hr hf
      omega
    all_goals intros; omega
  | f + 1 => parseStep_comp (parseReq_comp f)

/-- The parser finds every block. -/
theorem parseBlock_complete {b : C} (h : Derives .block b) {t : Token} (ht : endsBlock t = true) (X : List Token) :
    parseBlock (b.yield ++ t :: X) = some (b, t :: X) := by
  have := (parseReq_comp (parseFuel (b.yield ++ t :: X))).nt h (by decide)
    (by simp only [rank, parseFuel, List.length_append]; omega) t X ht
  simp [parseBlock, this]

end Luafmt
