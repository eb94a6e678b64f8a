import Verif.Proofs.Live
import Verif.Proofs.Output

/-
What the progress proof needs to know about parsed trees: the gaps of every node are gaps of the source,
its span lies in the source, and it has the children its arm prints.
-/
namespace Luafmt
open Spec

/-! ### Children and texts of the arms -/

/-- One more than the index of the child that is printed. -/
def Sh.ix : Sh → Nat
  | .kid i => i + 1
  | _ => 0

def El.ix : El → Nat
  | .kid i => i + 1
  | _ => 0

def Fm.ix : Fm → Nat
  | .el e => e.ix
  | .ind k _ _ body => body.foldl (fun m e => max m e.ix) (k + 1)

/-- The number of children an arm uses. -/
def Tag.need (t : Tag) : Nat :=
  max (match t with
    | .binaryOp _ => 2
    | .tableConstructor _ _ => 1
    | _ => 0)
  (max ((t.shape.getD []).foldl (fun m e => max m e.ix) 0)
    (((t.template Config.default).getD []).foldl (fun m e => max m e.ix) 0))

def endOkB (s : Str) : Bool :=
  match s.getLast? with
  | none => true
  | some ch => ch.utf8Size == 1

theorem endOk_of {s : Str} (h : endOkB s = true) : EndOk s := by
  intro ch hc
  rw [endOkB, hc] at h
  simpa using h

/-- The operator in the tag of an operation. -/
def Tag.op : Tag → Str
  | .binaryOp op | .unaryOp op => op
  | _ => []

def Sh.litOk (op : Str) : Sh → Prop
  | .lit s => endOkB s = true ∨ s = op
  | _ => True

def El.litOk (op : Str) : El → Prop
  | .lit s => endOkB s = true ∨ s = op
  | .hint _ h => endOkB h = true
  | .nl _ _ h => endOkB h = true
  | _ => True

def Fm.litOk (op : Str) : Fm → Prop
  | .el e => e.litOk op
  | .ind _ _ h body => endOkB h = true ∧ ∀ e ∈ body, e.litOk op

theorem foldl_max_le {α : Type} (g : α → Nat) (l : List α) : ∀ (m : Nat), m ≤ l.foldl (fun m e => max m (g e)) m ∧
    ∀ e ∈ l, g e ≤ l.foldl (fun m e => max m (g e)) m := by
  induction l with
  | nil => intro m; exact ⟨Nat.le_refl _, fun _ h => nomatch h⟩
  | cons x l ih =>
    intro m
    obtain ⟨h1, h2⟩ := ih (max m (g x))
    refine ⟨Nat.le_trans (Nat.le_max_left _ _) h1, fun e he => ?_⟩
    rcases List.mem_cons.mp he with rfl | he
    · exact Nat.le_trans (Nat.le_max_right _ _) h1
    · exact h2 e he

theorem shape_need {t : Tag} {sh : List Sh} (h : t.shape = some sh) : ∀ e ∈ sh, e.ix ≤ t.need := by
  intro e he
  refine Nat.le_trans ?_ (Nat.le_max_right _ _)
  refine Nat.le_trans ?_ (Nat.le_max_left _ _)
  rw [h]
  exact (foldl_max_le Sh.ix sh 0).2 e he

theorem template_ix (c : Config) (t : Tag) : (t.template c).map (·.map Fm.ix) = (t.template Config.default).map (·.map Fm.ix) := by
  cases t <;> rfl

theorem foldl_map_max {α : Type} (g : α → Nat) (l : List α) (m : Nat) :
    l.foldl (fun m e => max m (g e)) m = (l.map g).foldl max m := by
  induction l generalizing m with
  | nil => rfl
  | cons x l ih => simp [ih]

theorem template_need {c : Config} {t : Tag} {fs : List Fm} (h : t.template c = some fs) : ∀ e ∈ fs, e.ix ≤ t.need := by
  intro e he
  refine Nat.le_trans ?_ (Nat.le_max_right _ _)
  refine Nat.le_trans ?_ (Nat.le_max_right _ _)
  have hx := template_ix c t
  rw [h] at hx
  cases hd : t.template Config.default with
  | none => rw [hd] at hx; cases hx
  | some fs' =>
    rw [hd] at hx
    simp only [Option.map_some, Option.some.injEq] at hx
    have := (foldl_max_le Fm.ix fs 0).2 e he
    rw [foldl_map_max, hx, ← foldl_map_max] at this
    exact this

theorem shape_lits (t : Tag) : ∀ e ∈ t.shape.getD [], e.litOk t.op := by
  cases t <;> simp +decide [Tag.shape, Sh.litOk, Tag.op]

theorem template_lits (c : Config) (t : Tag) : ∀ e ∈ (t.template c).getD [], e.litOk t.op := by
  cases t <;> simp +decide [Tag.template, Fm.litOk, El.litOk, Tag.op]

/-! ### Trees -/

/-- The texts in a tag do not end in a character of several bytes. -/
structure TagOk (t : Tag) : Prop where
  leaf : ∀ s, t.leafText = some s → EndOk s
  op : EndOk t.op
  seps : ∀ ss, t.seps = some ss → ∀ s ∈ ss, EndOk s

mutual
/-- Every node of the tree can be printed. -/
def Node.Live (env : Env) : Node → Prop
  | .mk tag span locs kids =>
    (span.l ≤ span.r ∧ span.r ≤ env.buf.length) ∧ (∀ l ∈ locs, GapAt env l) ∧ tag.need ≤ kids.length ∧ TagOk tag ∧
      Node.LiveAll env kids
/-- Each of the trees can be printed. -/
def Node.LiveAll (env : Env) : List Node → Prop
  | [] => True
  | n :: ns => n.Live env ∧ Node.LiveAll env ns
end

theorem liveAll_iff {env : Env} {ns : List Node} : Node.LiveAll env ns ↔ ∀ n ∈ ns, n.Live env := by
  induction ns with
  | nil => simp [Node.LiveAll]
  | cons n ns ih => simp [Node.LiveAll, ih]

theorem GapAt.here {env : Env} {p : Nat} (h : p ≤ env.buf.length) : GapAt env ⟨p, p⟩ :=
  ⟨env.buf.take p, [], env.buf.drop p, by simp, by simp; omega, .inl .nil⟩

/-- The tokens follow one another from a position on, with gaps of the source between them. -/
def RowFrom (env : Env) : Nat → List TokL → Prop
  | _, [] => True
  | p, t :: ts => GapAt env ⟨p, t.l⟩ ∧ t.l ≤ t.r ∧ t.r ≤ env.buf.length ∧ RowFrom env t.r ts

theorem rowFrom_tiles {env : Env} {ts : List TokL} : ∀ {pre s : Str}, env.buf = pre ++ s → TilesR s pre.length ts →
    RowFrom env pre.length ts := by
  induction ts with
  | nil => intro _ _ _ _; trivial
  | cons t ts ih =>
    intro pre s hb h
    rcases h with ⟨_, rfl, hg, h1, h2⟩ | ⟨g, u, s', _, rfl, hg, h1, h2, _, _, h3⟩
    · refine ⟨⟨pre, s, [], by simp [hb], by rw [h1], hg⟩, by omega, ?_, trivial⟩
      rw [hb, h2, h1]; simp
    · refine ⟨⟨pre, g, u ++ s', hb, by rw [h1], .inl hg⟩, by omega, ?_, ?_⟩
      · rw [hb, h2, h1]; simp; omega
      · have e : (pre ++ g ++ u).length = t.r := by simp; omega
        have := ih (pre := pre ++ g ++ u) (s := s') (by simp [hb]) (by rw [e]; exact h3)
        rw [e] at this
        exact this

/-- A part can be printed. -/
def Part.Live (env : Env) : Part → Prop
  | .tok _ => True
  | .node n => n.Live env

/-- The parts follow one another. -/
def PartsFrom (env : Env) : Nat → List Part → Prop
  | _, [] => True
  | p, q :: qs => GapAt env ⟨p, q.span.l⟩ ∧ q.span.l ≤ q.span.r ∧ q.span.r ≤ env.buf.length ∧ q.Live env ∧
      PartsFrom env q.span.r qs

/-- The end of some parts. -/
def endParts (p : Nat) : List Part → Nat
  | [] => p
  | q :: qs => endParts q.span.r qs

theorem partsFrom_bounds {env : Env} {qs : List Part} : ∀ {p : Nat}, p ≤ env.buf.length → PartsFrom env p qs →
    p ≤ endParts p qs ∧ endParts p qs ≤ env.buf.length := by
  induction qs with
  | nil => intro p hp _; exact ⟨Nat.le_refl _, hp⟩
  | cons q qs ih =>
    intro p _ h
    obtain ⟨⟨a, g, b, h1, h2, _⟩, h3, h4, _, h5⟩ := h
    obtain ⟨k1, k2⟩ := ih h4 h5
    injection h2 with e1 e2
    simp only [endParts]
    omega

theorem gapsOf_live {env : Env} {qs : List Part} : ∀ {p : Nat}, PartsFrom env p qs → ∀ l ∈ gapsOf qs, GapAt env l := by
  induction qs with
  | nil => intro p _ l hl; simp [gapsOf] at hl
  | cons q qs ih =>
    intro p h l hl
    cases qs with
    | nil => simp [gapsOf] at hl
    | cons q' qs =>
      simp only [gapsOf, List.mem_cons] at hl
      obtain ⟨_, _, _, _, h5⟩ := h
      rcases hl with rfl | hl
      · exact h5.1
      · exact ih h5 l hl

theorem sepLocs_live {env : Env} : ∀ (n : Nat) (qs : List Part), qs.length ≤ n → ∀ {p : Nat} {pre : Loc}, PartsFrom env p qs →
    GapAt env pre → (∀ l ∈ (sepLocs pre qs).1, GapAt env l) ∧ ∀ s ∈ (sepLocs pre qs).2, endOkB s = true := by
  intro n
  induction n with
  | zero =>
    intro qs hq p pre _ _
    cases qs with
    | nil => simp [sepLocs]
    | cons q qs => simp at hq
  | succ n ih =>
    intro qs hq p pre h hp
    match qs, h with
    | [], _ => simp [sepLocs]
    | [q], h =>
      simp only [sepLocs, List.mem_cons, List.not_mem_nil, or_false]
      refine ⟨?_, ?_⟩
      · rintro l (rfl | rfl)
        · exact hp
        · exact .here h.2.2.1
      · rintro s rfl
        rfl
    | q :: .tok s :: ps, h =>
      obtain ⟨_, _, _, _, h5⟩ := h
      obtain ⟨k1, k2, k3, _, k5⟩ := h5
      have i := fun nx hnx => ih ps (by simp at hq; omega) k5 (pre := nx) hnx
      simp only [sepLocs, List.mem_cons]
      refine ⟨?_, ?_⟩
      · rintro l (rfl | rfl | hl)
        · exact hp
        · exact k1
        · refine (i _ ?_).1 l hl
          split
          · exact k5.1
          · exact .here k3
      · rintro u (rfl | hu)
        · cases s.tok <;> rfl
        · refine (i _ ?_).2 u hu
          split
          · exact k5.1
          · exact .here k3
    | q :: .node m :: ps, h =>
      obtain ⟨_, _, _, _, h5⟩ := h
      obtain ⟨i1, i2⟩ := ih (.node m :: ps) (by simp at hq ⊢; omega) h5 h5.1
      simp only [sepLocs, List.mem_cons]
      refine ⟨?_, ?_⟩
      · rintro l (rfl | rfl | hl)
        · exact hp
        · exact h5.1
        · exact i1 l hl
      · rintro u (rfl | hu)
        · rfl
        · exact i2 u hu

theorem setSeps_need (ss : List Str) (t : Tag) : (t.setSeps ss).need = t.need := by cases t <;> rfl

theorem setSeps_op (ss : List Str) (t : Tag) : (t.setSeps ss).op = t.op := by cases t <;> rfl

theorem setSeps_get {ss us : List Str} {t : Tag} (h : (t.setSeps ss).seps = some us) : us = ss := by
  cases t <;> cases h <;> rfl

theorem endParts_last (p : Nat) (qs : List Part) (h : qs ≠ []) : (qs.getLast?.map (·.span.r)).getD 0 = endParts p qs := by
  induction qs generalizing p with
  | nil => exact absurd rfl h
  | cons q qs ih =>
    cases qs with
    | nil => rfl
    | cons q' qs =>
      rw [List.getLast?_cons_cons, ih q.span.r (by simp)]
      rfl

theorem parts_kids {env : Env} {qs : List Part} : ∀ {p : Nat}, PartsFrom env p qs → Node.LiveAll env (qs.filterMap Part.node?) := by
  induction qs with
  | nil => intro p _; trivial
  | cons q qs ih =>
    intro p h
    obtain ⟨_, _, _, h4, h5⟩ := h
    cases q with
    | tok t => exact ih h5
    | node n => exact ⟨h4, ih h5⟩

/-- The node for parts that follow one another. -/
theorem buildNode_live {env : Env} {tag : Tag} {q : Part} {qs : List Part} {p : Nat} (h : PartsFrom env p (q :: qs))
    (hn : tag.need ≤ ((q :: qs).filterMap Part.node?).length) (hl : ∀ s, tag.leafText = some s → EndOk s) (ho : EndOk tag.op) :
    (buildNode tag (q :: qs)).Live env ∧ (buildNode tag (q :: qs)).span = ⟨q.span.l, endParts p (q :: qs)⟩ := by
  have hlast := endParts_last p (q :: qs) (by simp)
  have hb := partsFrom_bounds h.2.2.1 h.2.2.2.2
  have hh := h.2.1
  have hk := parts_kids h
  have hx : GapAt env ⟨q.span.l, q.span.l⟩ := .here (Nat.le_trans h.2.1 h.2.2.1)
  have hspan : q.span.l ≤ endParts p (q :: qs) ∧ endParts p (q :: qs) ≤ env.buf.length := by
    simp only [endParts]
    omega
  unfold buildNode
  simp only [List.head?_cons, Option.map_some, Option.getD_some, hlast]
  cases hs : tag.seps with
  | some ss =>
    obtain ⟨i1, i2⟩ := sepLocs_live _ (q :: qs) (Nat.le_refl _) h hx
    refine ⟨⟨hspan, i1, by rw [setSeps_need]; exact hn, ⟨?_, ?_, ?_⟩, hk⟩, rfl⟩
    · rw [setSeps_leaf]; exact hl
    · rw [setSeps_op]; exact ho
    · intro us hu s hm
      rw [setSeps_get hu] at hm
      exact endOk_of (i2 s hm)
  | none =>
    have hto : TagOk tag := ⟨hl, ho, fun ss h => by rw [hs] at h; cases h⟩
    simp only
    split
    · refine ⟨⟨hspan, ?_, hn, hto, hk⟩, rfl⟩
      intro l hl
      rcases List.mem_cons.mp hl with rfl | hl
      · exact hx
      · exact gapsOf_live h l hl
    · exact ⟨⟨hspan, gapsOf_live h, hn, hto, hk⟩, rfl⟩

/-! ### Productions -/

def Sym.isN : Sym → Bool
  | .n _ => true
  | _ => false

theorem prods_need : ∀ p ∈ prods, (p.2.1.need = 0 ∨ (p.2.2.all Sym.isTN = true ∧ p.2.1.need ≤ (p.2.2.filter Sym.isN).length)) ∧
    endOkB (p.2.1.leafText.getD []) = true ∧ endOkB p.2.1.op = true := by decide +kernel

theorem matches_nodes : ∀ {ss : List Sym} {xs : List (Cst TokL)}, ss.all Sym.isTN = true → Matches ss (stripAll xs) →
    ((placeAll xs).filterMap Part.node?).length = (ss.filter Sym.isN).length := by
  intro ss
  induction ss with
  | nil =>
    intro xs _ h
    generalize he : stripAll xs = ys at h
    cases h with
    | nil => rw [stripAll_nil he]; rfl
  | cons s ss ih =>
    intro xs ha h
    generalize he : stripAll xs = ys at h
    simp only [List.all_cons, Bool.and_eq_true] at ha
    cases h with
    | t h' =>
      obtain ⟨x, xs', rfl, e1, e2⟩ := stripAll_cons he
      obtain ⟨u, rfl, _⟩ := strip_tok e1
      exact ih ha.2 (xs := xs') (by rw [e2]; exact h')
    | n hd h' =>
      obtain ⟨x, xs', rfl, e1, e2⟩ := stripAll_cons he
      obtain ⟨tag, zs, rfl⟩ := strip_derives (x := x) (by rw [e1]; exact hd)
      exact congrArg (· + 1) (ih ha.2 (xs := xs') (by rw [e2]; exact h'))
    | _ => exact absurd ha.1 (by simp [Sym.isTN])

theorem low_size {ch : Char} (h : ch.toNat < 128) : ch.utf8Size = 1 := by
  unfold Char.utf8Size
  have : ch.val ≤ 0x7f := by
    rw [UInt32.le_iff_toNat_le]
    have : ch.val.toNat = ch.toNat := rfl
    have e : (0x7f : UInt32).toNat = 127 := rfl
    omega
  exact if_pos this

theorem isDigit_size {ch : Char} (h : isDigit ch = true) : ch.utf8Size = 1 := by
  simp only [isDigit, Bool.and_eq_true, decide_eq_true_eq] at h
  exact low_size (by omega)

theorem isHex_size {ch : Char} (h : isHex ch = true) : ch.utf8Size = 1 := by
  simp only [isHex, isDigit, Bool.and_eq_true, Bool.or_eq_true, decide_eq_true_eq] at h
  exact low_size (by omega)

theorem isAlpha_size {ch : Char} (h : isAlpha ch = true) : ch.utf8Size = 1 := by
  simp only [isAlpha, Bool.and_eq_true, Bool.or_eq_true, decide_eq_true_eq] at h
  exact low_size (by omega)

theorem isIdent_size {ch : Char} (h : isIdent ch = true) : ch.utf8Size = 1 := by
  simp only [isIdent, Bool.or_eq_true, beq_iff_eq] at h
  rcases h with (h | h) | rfl
  · exact isAlpha_size h
  · exact isDigit_size h
  · decide

theorem isNumChar_size {ch : Char} (h : isNumChar ch = true) : ch.utf8Size = 1 := by
  simp only [isNumChar, Bool.or_eq_true, beq_iff_eq] at h
  rcases h with h | rfl
  · exact isDigit_size h
  · decide

theorem OneByte.cons {x : Char} {s : Str} (hx : x.utf8Size = 1) (hs : OneByte s) : OneByte (x :: s) := by
  intro ch hc
  rcases List.mem_cons.mp hc with rfl | hc
  · exact hx
  · exact hs ch hc

theorem mant_oneByte {m : Str} (h : Mant m) : OneByte m := by
  cases h with
  | digit d m hd hm => exact .cons (isDigit_size hd) fun ch hc => isNumChar_size (hm ch hc)
  | dot d m hd hm => exact .cons (by decide) (.cons (isDigit_size hd) fun ch hc => isNumChar_size (hm ch hc))

theorem num_oneByte {s : Str} {n : Option Char} (h : NumReads s n) : OneByte s := by
  have he : ∀ {e : Char}, e = 'e' ∨ e = 'E' → e.utf8Size = 1 := by
    rintro e (rfl | rfl) <;> decide
  cases h with
  | hex h n h1 _ _ => exact .cons (by decide) (.cons (by decide) fun ch hc => isHex_size (h1 ch hc))
  | plain m n h1 _ _ => exact mant_oneByte h1
  | exp m e k n h1 h2 h3 _ _ =>
    exact (mant_oneByte h1).append (.cons (he h2) fun ch hc => isDigit_size (h3 ch hc))
  | expNeg m e k n h1 h2 h3 _ _ =>
    exact (mant_oneByte h1).append (.cons (he h2) (.cons (by decide) fun ch hc => isDigit_size (h3 ch hc)))

/-- The token ends in a character of one byte. -/
def TokEnd (t : Token) : Prop := EndOk (spell t)

theorem reads_end {t : Token} {n : Option Char} (h : Reads t n) : TokEnd t := by
  rcases h with ⟨s, rfl, h⟩ | ⟨h, _⟩
  · exact (num_oneByte h).endOk
  · unfold TokEnd
    cases t with
    | «variable» s =>
      obtain ⟨⟨c, r, rfl, h1, h2⟩, _⟩ := h
      refine OneByte.endOk (.cons ?_ fun ch hc => isIdent_size (h2 ch hc))
      rcases h1 with h1 | rfl
      · exact isAlpha_size h1
      · decide
    | numeral s => cases h
    | normalString s => exact EndOk.last (f := '"' :: s) (g := ['"']) (x := '"') (by decide) rfl
    | charString s => exact EndOk.last (f := '\'' :: s) (g := ['\'']) (x := '\'') (by decide) rfl
    | multiLineString n s =>
      have e : spell (.multiLineString n s) = (opener n ++ s ++ ']' :: List.replicate n '=') ++ [']'] := by
        simp [spell, closer]
      rw [e]
      exact EndOk.last (x := ']') (by decide) rfl
    | sheBang s => exact EndOk.last (x := '\n') (by decide) rfl
    | _ => exact endOk_of (by decide)

theorem leafTag_need {t : Token} {a : NT} {tag : Tag} (h : leafTag t = some (a, tag)) : tag.need = 0 ∧ tag.op = [] := by
  unfold leafTag at h
  split at h <;> cases h <;> exact ⟨rfl, rfl⟩

mutual
/-- A derivation tree with positions gives a tree that can be printed. -/
theorem place_live (env : Env) : ∀ (x : Cst TokL), ((∃ t, strip x = .tok t) ∨ ∃ n, Derives n (strip x)) →
    (∀ t ∈ x.yield, TokEnd t.tok) → ∀ (p : Nat) (rest : List TokL), RowFrom env p (x.yield ++ rest) →
    GapAt env ⟨p, (placeC x).span.l⟩ ∧ (placeC x).span.l ≤ (placeC x).span.r ∧ (placeC x).span.r ≤ env.buf.length ∧
      (placeC x).Live env ∧ RowFrom env (placeC x).span.r rest
  | .tok t, _, _, p, rest, h => ⟨h.1, h.2.1, h.2.2.1, trivial, h.2.2.2⟩
  | .node tag xs, h, ht, p, rest, hr => by
    rcases h with ⟨t, h⟩ | ⟨n, h⟩
    · simp [strip] at h
    · have hne : xs ≠ [] := by
        obtain ⟨⟨t, ts, e1, _⟩, _⟩ := place_good Config.default (.node tag xs) (.inr ⟨n, h⟩)
        rintro rfl
        simp [Cst.yield, Cst.yields] at e1
      have hall : ∀ y ∈ stripAll xs, (∃ t, y = .tok t) ∨ ∃ n, Derives n y := by
        rcases derives_inv h with ⟨a, tag', ss, cs, e, hp, hm⟩ | ⟨a, tag', t, e, hl⟩
        · simp only [strip, Cst.node.injEq] at e
          rw [e.2]
          exact matches_all hm
        · simp only [strip, Cst.node.injEq] at e
          rw [e.2]
          intro y hy
          exact .inl ⟨t, by simpa using hy⟩
      simp only [Cst.yield] at ht hr
      obtain ⟨k1, k2⟩ := place_lives env xs hall ht p rest hr
      have htag : tag.need ≤ ((placeAll xs).filterMap Part.node?).length ∧ (∀ s, tag.leafText = some s → EndOk s) ∧ EndOk tag.op := by
        rcases derives_inv h with ⟨a, tag', ss, cs, e, hp, hm⟩ | ⟨a, tag', t, e, hl⟩
        · simp only [strip, Cst.node.injEq] at e
          obtain ⟨rfl, e⟩ := e
          obtain ⟨c1, c2, c3⟩ := prods_need _ hp
          refine ⟨?_, ?_, endOk_of c3⟩
          · rcases c1 with c1 | ⟨c1, c1'⟩
            · simp only at c1
              omega
            · rw [matches_nodes c1 (by rw [e]; exact hm)]
              exact c1'
          · intro s hs
            simp only [hs, Option.getD_some] at c2
            exact endOk_of c2
        · simp only [strip, Cst.node.injEq] at e
          obtain ⟨rfl, e⟩ := e
          obtain ⟨z, zs, rfl, e1, e2⟩ := stripAll_cons e
          obtain ⟨u, rfl, rfl⟩ := strip_tok e1
          obtain ⟨l1, l2⟩ := leafTag_need hl
          refine ⟨by omega, ?_, by rw [l2]; exact .nil⟩
          intro s hs
          rw [(leafTag_text hl).1] at hs
          cases hs
          exact ht u (by simp [Cst.yields, Cst.yield])
      obtain ⟨x, ys, rfl⟩ := List.exists_cons_of_ne_nil hne
      obtain ⟨b1, b2⟩ := buildNode_live (tag := tag) (q := placeC x) (qs := placeAll ys) (p := p) k1 htag.1 htag.2.1 htag.2.2
      have e : (placeC (.node tag (x :: ys))).span = ⟨(placeC x).span.l, endParts p (placeAll (x :: ys))⟩ := b2
      rw [e]
      have hb := partsFrom_bounds k1.2.2.1 k1.2.2.2.2
      refine ⟨k1.1, ?_, hb.2, b1, k2⟩
      exact Nat.le_trans k1.2.1 hb.1
/-- The same for several trees. -/
theorem place_lives (env : Env) : ∀ (xs : List (Cst TokL)),
    (∀ y ∈ stripAll xs, (∃ t, y = .tok t) ∨ ∃ n, Derives n y) → (∀ t ∈ Cst.yields xs, TokEnd t.tok) →
    ∀ (p : Nat) (rest : List TokL), RowFrom env p (Cst.yields xs ++ rest) →
    PartsFrom env p (placeAll xs) ∧ RowFrom env (endParts p (placeAll xs)) rest
  | [], _, _, p, rest, h => ⟨trivial, h⟩
  | x :: xs, hy, ht, p, rest, h => by
    simp only [stripAll] at hy
    simp only [Cst.yields, List.append_assoc] at h
    simp only [Cst.yields] at ht
    obtain ⟨h1, h2, h3, h4, h5⟩ := place_live env x (hy _ List.mem_cons_self) (fun t hm => ht t (List.mem_append_left _ hm)) p _ h
    obtain ⟨k1, k2⟩ := place_lives env xs (fun z hz => hy z (List.mem_cons_of_mem _ hz))
      (fun t hm => ht t (List.mem_append_right _ hm)) _ _ h5
    exact ⟨⟨h1, h2, h3, h4, k1⟩, k2⟩
end

/-- A block or a shebang line. -/
theorem attach_live (env : Env) {n : NT} (hn : n ≠ .fieldList) {x : C} (h : Derives n x) {ps : List TokL} {rest : List Token}
    (hp : ps.map (·.tok) = x.yield ++ rest) {p : Nat} (hr : RowFrom env p ps) (ht : ∀ t ∈ ps, t.tok ≠ .eof → TokEnd t.tok)
    (hx : ∀ t ∈ x.yield, t ≠ .eof) :
    ∃ m, placeNode (attach x ps).1 = m ∧ GapAt env ⟨p, m.span.l⟩ ∧ m.span.l ≤ m.span.r ∧ m.span.r ≤ env.buf.length ∧ m.Live env ∧
      RowFrom env m.span.r (attach x ps).2 ∧ (attach x ps).2.map (·.tok) = rest ∧ ∀ t ∈ (attach x ps).2, t ∈ ps := by
  obtain ⟨h1, h2, h3⟩ := attach_ok x ps rest hp
  obtain ⟨_, _, _, h4, _⟩ := attach_good Config.default hn h hp
  have hy : ∀ t ∈ (attach x ps).1.yield, TokEnd t.tok := by
    intro t hm
    refine ht t (by rw [h2]; exact List.mem_append_left _ hm) ?_
    refine hx _ ?_
    have e : (attach x ps).1.yield.map (·.tok) = x.yield := by
      have := hp
      rw [h2, List.map_append, h3] at this
      exact List.append_cancel_right this
    rw [← e]
    exact List.mem_map_of_mem hm
  have hr' := hr
  rw [h2] at hr'
  obtain ⟨k1, k2, k3, k4, k5⟩ := place_live env (attach x ps).1 (.inr ⟨n, by rw [h1]; exact h⟩) hy p _ hr'
  rw [h4] at k1 k2 k3 k4 k5
  exact ⟨_, rfl, k1, k2, k3, k4, k5, h3, fun t hm => by rw [h2]; exact List.mem_append_right _ hm⟩

theorem chunk_need : Tag.need .chunk = 1 ∧ Tag.need .sheBangChunk = 2 ∧ Tag.need .statementList = 0 := by decide +kernel

theorem TagOk.plain {t : Tag} (h1 : t.leafText = none) (h2 : t.op = []) (h3 : t.seps = none) : TagOk t :=
  ⟨fun s h => (by rw [h1] at h; cases h), (by rw [h2]; exact .nil), fun s h => (by rw [h3] at h; cases h)⟩

theorem tiles_eof {us : List TokL} : ∀ {s : Str} {p : Nat} {e : TokL}, TilesR s p (us ++ [e]) →
    (∀ u ∈ us, u.tok ≠ .eof) ∧ (e.tok = .eof → e.l = p + s.length) := by
  induction us with
  | nil =>
    intro s p e h
    refine ⟨fun _ h => (nomatch h), fun he => ?_⟩
    rcases h with ⟨_, _, _, h, _⟩ | ⟨_, _, _, h, _⟩
    · exact h
    · exact absurd he h
  | cons u us ih =>
    intro s p e h
    rcases h with ⟨_, h, _⟩ | ⟨g, w, s', h1, rfl, _, h2, h3, _, _, h4⟩
    · simp at h
    · obtain ⟨k1, k2⟩ := ih h4
      refine ⟨?_, fun he => ?_⟩
      · intro v hv
        rcases List.mem_cons.mp hv with rfl | hv
        · exact h1
        · exact k1 v hv
      · rw [k2 he]
        simp only [List.length_append]
        omega

/-- The tree of tokens that follow one another can be printed. -/
theorem placeChunk_live {env : Env} {us : List TokL} {e : TokL} {sb b : Option C} (hrow : RowFrom env 0 (us ++ [e]))
    (te1 : ∀ u ∈ us, u.tok ≠ .eof) (te2 : e.l = env.buf.length) (he2 : e.tok = .eof) (hend0 : ∀ t ∈ us, TokEnd t.tok)
    (hsb : ∀ x, sb = some x → Derives .sheBangLine x) (h2 : ∀ x, b = some x → Derives .block x)
    (h3 : (us ++ [e]).map (·.tok) = Cst.yields (sb.toList ++ b.toList) ++ [.eof]) :
    (placeChunk env.buf.length (us ++ [e]) sb b).Live env := by
  have hend : ∀ t ∈ us ++ [e], t.tok ≠ .eof → TokEnd t.tok := by
    intro t ht hne
    rcases List.mem_append.mp ht with ht | ht
    · exact hend0 t ht
    · simp only [List.mem_singleton] at ht
      rw [ht] at hne
      exact absurd he2 hne
  have he1 : us.map (·.tok) = Cst.yields (sb.toList ++ b.toList) := by
    rw [List.map_append, List.map_singleton, he2] at h3
    exact List.append_cancel_right h3
  have hne : ∀ t ∈ Cst.yields (sb.toList ++ b.toList), t ≠ .eof := by
    intro t ht
    rw [← he1] at ht
    obtain ⟨u, hu, rfl⟩ := List.mem_map.mp ht
    exact te1 u hu
  have hfin : ∀ {p : Nat} {ts : List TokL}, RowFrom env p ts → ts.map (·.tok) = [.eof] → (∀ t ∈ ts, t ∈ us ++ [e]) →
      GapAt env ⟨p, env.buf.length⟩ := by
    intro p ts hr hq hm
    cases ts with
    | nil => cases hq
    | cons t ts =>
      have ht : t.tok = .eof := by simp at hq; exact hq.1
      have hte : t = e := by
        rcases List.mem_append.mp (hm t List.mem_cons_self) with h | h
        · exact absurd ht (te1 t h)
        · simpa using h
      have := hr.1
      rw [hte, te2] at this
      exact this
  have hfree : GapAt env ⟨env.buf.length, env.buf.length⟩ := .here (Nat.le_refl _)
  have bounds : ∀ {p q : Nat}, GapAt env ⟨p, q⟩ → p ≤ q ∧ q ≤ env.buf.length := by
    rintro p q ⟨a, g, b, e1, e2, _⟩
    injection e2 with e2 e3
    rw [e1]
    simp
    omega
  cases sb with
  | none =>
    cases b with
    | none =>
      simp only [Option.toList_none, List.append_nil, Cst.yields, List.nil_append] at h3
      have g0 := hfin hrow h3 (fun t h => h)
      refine ⟨⟨Nat.zero_le _, Nat.le_refl _⟩, ?_, by simp [chunk_need.1], .plain rfl rfl rfl, ?_⟩
      · intro l hl
        simp only [List.mem_cons, List.not_mem_nil, or_false] at hl
        rcases hl with rfl | rfl
        · exact g0
        · exact hfree
      · exact ⟨⟨⟨Nat.le_refl _, Nat.le_refl _⟩, ⟨fun l hl => (nomatch hl), ⟨by simp [chunk_need.2.2], .plain rfl rfl rfl, trivial⟩⟩⟩, trivial⟩
    | some x =>
      simp only [Option.toList_none, Option.toList_some, List.nil_append, Cst.yields, List.append_nil] at h3
      obtain ⟨m, e, m1, m2, m3, m4, m5, m6, m7⟩ := attach_live env (by decide) (h2 _ rfl) h3 hrow hend (fun t ht => hne t (by simp [Cst.yields, ht]))
      have g1 := hfin m5 m6 m7
      simp only [placeChunk, e]
      refine ⟨⟨Nat.zero_le _, Nat.le_trans m2 m3⟩, ?_, by simp [chunk_need.1], .plain rfl rfl rfl, ⟨m4, trivial⟩⟩
      intro l hl
      simp only [List.mem_cons, List.not_mem_nil, or_false] at hl
      rcases hl with rfl | rfl
      · exact m1
      · exact g1
  | some s =>
    have hs := hsb s rfl
    cases b with
    | none =>
      simp only [Option.toList_none, Option.toList_some, List.append_nil, Cst.yields] at h3
      obtain ⟨m, e, m1, m2, m3, m4, m5, m6, m7⟩ := attach_live env (by decide) hs h3 hrow hend (fun t ht => hne t (by simp [Cst.yields, ht]))
      have g1 := hfin m5 m6 m7
      simp only [placeChunk, e]
      refine ⟨⟨Nat.zero_le _, Nat.le_trans m2 m3⟩, ?_, by simp [chunk_need.1], .plain rfl rfl rfl, ⟨m4, trivial⟩⟩
      intro l hl
      simp only [List.mem_cons, List.not_mem_nil, or_false] at hl
      rcases hl with rfl | rfl
      · exact m1
      · exact g1
    | some x =>
      simp only [Option.toList_some, Cst.yields, List.append_nil, List.singleton_append, List.append_assoc] at h3
      obtain ⟨m, e, m1, m2, m3, m4, m5, m6, m7⟩ := attach_live env (by decide) hs h3 hrow hend (fun t ht => hne t (by simp [Cst.yields, ht]))
      obtain ⟨k, e', k1, k2, k3, k4, k5, k6, k7⟩ := attach_live env (by decide) (h2 _ rfl) m6 m5
        (fun t ht => hend t (m7 t ht)) (fun t ht => hne t (by simp [Cst.yields, ht]))
      have g1 := hfin k5 k6 (fun t ht => m7 t (k7 t ht))
      simp only [placeChunk, e, e']
      refine ⟨⟨Nat.zero_le _, Nat.le_trans m2 m3⟩, ?_, by simp [chunk_need.2.1], .plain rfl rfl rfl, ⟨m4, k4, trivial⟩⟩
      intro l hl
      simp only [List.mem_cons, List.not_mem_nil, or_false] at hl
      rcases hl with rfl | rfl | rfl
      · exact m1
      · exact k1
      · exact g1

/-- The tree of a parsed source can be printed. -/
theorem parseLua_live {src : Str} {tree : Node} (h : parseLua src = some tree) (pr : Option (Nat × Nat)) : tree.Live ⟨src, pr⟩ := by
  unfold parseLua at h
  simp only [Option.bind_eq_bind, Option.bind_eq_some_iff, Option.some.injEq, Prod.exists] at h
  obtain ⟨toks, hlex, sb, b, hc, rfl⟩ := h
  obtain ⟨h1, h2, h3⟩ := parseChunk_sound hc
  have hT := lexFrom_tilesR 0 src _ hlex
  have hrow : RowFrom ⟨src, pr⟩ 0 toks := rowFrom_tiles (env := ⟨src, pr⟩) (pre := []) (s := src) rfl hT
  have hend : ∀ t ∈ toks, t.tok ≠ .eof → TokEnd t.tok := by
    intro t ht hne
    rcases lexFrom_tokOk 0 src _ hlex t ht with h | ⟨n, h⟩
    · exact absurd h hne
    · exact reads_end h
  have hsb : ∀ x, sb = some x → Derives .sheBangLine x := by
    intro x hx
    obtain ⟨s, rfl⟩ := h1 x hx
    exact .leaf rfl
  have hsplit : ∃ us e, toks = us ++ [e] ∧ us.map (·.tok) = Cst.yields (sb.toList ++ b.toList) ∧ e.tok = .eof := by
    have := List.map_eq_append_iff.mp h3
    obtain ⟨us, vs, rfl, e1, e2⟩ := this
    obtain ⟨e, rfl, e3⟩ : ∃ e, vs = [e] ∧ e.tok = .eof := by
      cases vs with
      | nil => simp at e2
      | cons v vs =>
        cases vs with
        | nil => exact ⟨v, rfl, by simpa using e2⟩
        | cons w ws => simp at e2
    exact ⟨us, e, rfl, e1, e3⟩
  obtain ⟨us, e, rfl, he1, he2⟩ := hsplit
  obtain ⟨te1, te2⟩ := tiles_eof hT
  exact placeChunk_live (env := ⟨src, pr⟩) hrow te1 (by rw [te2 he2]; simp) he2
    (fun t ht => hend t (List.mem_append_left _ ht) (te1 t ht)) hsb h2 h3

/-! ### Reconstruction -/

theorem annotateTag_need (c : Config) (over : Option Bool) (t : Tag) (ks : List Node) : (annotateTag c over t ks).need = t.need := by
  cases t <;> simp only [annotateTag]
  case fields => rfl
  case tableConstructor => rfl
  case charStringLiteral => split <;> rfl

theorem annotateTag_ok {c : Config} {over : Option Bool} {t : Tag} {ks : List Node} (h : TagOk t) : TagOk (annotateTag c over t ks) := by
  cases t <;> simp only [annotateTag] <;> try exact h
  case fields ss _ _ => exact ⟨fun s h => (by cases h), .nil, fun us hu => h.seps us hu⟩
  case tableConstructor => exact ⟨fun s h => (by cases h), .nil, fun us hu => (by cases hu)⟩
  case charStringLiteral s =>
    split
    · refine ⟨fun u hu => ?_, .nil, fun us hu => (by cases hu)⟩
      cases hu
      exact EndOk.last (x := '"') (by decide) rfl
    · exact h

mutual
theorem annotate_live {env : Env} (c : Config) : ∀ (n : Node) (over : Option Bool), n.Live env → (annotate c over n).Live env
  | .mk tag span locs kids, over, h => by
    obtain ⟨h1, h2, h3, h4, h5⟩ := h
    obtain ⟨k1, k2⟩ := annotateAll_live c kids (childSingle over tag kids.length) h5
    refine ⟨h1, h2, ?_, annotateTag_ok h4, k1⟩
    rw [annotateTag_need, k2]
    exact h3
theorem annotateAll_live {env : Env} (c : Config) : ∀ (ns : List Node) (over : Option Bool), Node.LiveAll env ns →
    Node.LiveAll env (annotateAll c over ns) ∧ (annotateAll c over ns).length = ns.length
  | [], _, _ => ⟨trivial, rfl⟩
  | n :: ns, over, h => by
    obtain ⟨k1, k2⟩ := annotateAll_live c ns over h.2
    exact ⟨⟨annotate_live c n over h.1, k1⟩, by simp [annotateAll, k2]⟩
end

end Luafmt
