import Verif.Proofs.Spans
import Verif.Proofs.FirstLast

/-
The nodes of a parsed tree cover their source text: the source text of the items of a node is the text of its span,
and the statements of a block follow one another with the gaps that the block records.
-/
namespace Luafmt
open Spec

/-! ### Parts of a text -/

/-- The text from `a` to `b`. -/
def slice (s : Str) (a b : Nat) : Str := (s.take b).drop a

theorem slice_length {s : Str} {a b : Nat} (h : b ≤ s.length) : (slice s a b).length = b - a := by
  simp [slice]; omega

theorem slice_same (s : Str) (a : Nat) : slice s a a = [] := by simp [slice]

theorem slice_append {s : Str} {a m b : Nat} (h1 : a ≤ m) (h2 : m ≤ b) (h3 : b ≤ s.length) :
    slice s a m ++ slice s m b = slice s a b := by
  unfold slice
  have e : (s.take b).take m = s.take m := by rw [List.take_take, Nat.min_eq_left h2]
  rw [← e, ← List.drop_append_of_le_length (by simp; omega), List.take_append_drop]

theorem slice_mid {s a g b : Str} (h : s = a ++ (g ++ b)) : slice s a.length (a.length + g.length) = g := by
  subst h
  unfold slice
  rw [← List.append_assoc, List.take_left' (by simp)]
  simp

theorem slice_take {s : Str} {b : Nat} : slice s 0 b = s.take b := by simp [slice]

theorem slice_drop {s : Str} {a : Nat} : slice s a s.length = s.drop a := by simp [slice]

theorem substr_cut {s : Str} {a b : Nat} (h1 : a ≤ b) (h2 : b ≤ s.length) : substr s ⟨a, b⟩ s 0 = .ok (slice s a b) := by
  have e : s = s.take a ++ (slice s a b ++ s.drop b) := by
    have := slice_append (s := s) (Nat.zero_le a) h1 h2
    rw [slice_take, slice_take] at this
    rw [← List.append_assoc, this, List.take_append_drop]
  have hl := slice_length (a := a) h2
  have ha : (s.take a).length = a := by simp; omega
  have := substr_src e
  rw [ha, hl] at this
  rwa [show a + (b - a) = b by omega] at this

/-! ### The tokens of the source -/

/-- The token is a nonempty part of the source and its text is there. -/
structure TokAt (env : Env) (t : TokL) : Prop where
  lt : t.l < t.r
  le : t.r ≤ env.buf.length
  text : slice env.buf t.l t.r = spell t.tok
  last : NoTab (spell t.tok)

theorem noTab_of_all {s : Str} (h : ∀ ch ∈ s, ch ≠ ' ' ∧ ch ≠ '\t') : NoTab s := by
  constructor <;> intro he
  · exact (h _ (List.mem_of_getLast? he)).1 rfl
  · exact (h _ (List.mem_of_getLast? he)).2 rfl

theorem noTab_concat {s : Str} {x : Char} (h : x ≠ ' ' ∧ x ≠ '\t') : NoTab (s ++ [x]) := by
  constructor <;> rw [List.getLast?_concat] <;> intro e <;> cases e
  · exact h.1 rfl
  · exact h.2 rfl

theorem isDigit_noTab {ch : Char} (h : isDigit ch = true) : ch ≠ ' ' ∧ ch ≠ '\t' := by
  constructor <;> rintro rfl <;> revert h <;> decide

theorem isHex_noTab {ch : Char} (h : isHex ch = true) : ch ≠ ' ' ∧ ch ≠ '\t' := by
  constructor <;> rintro rfl <;> revert h <;> decide

theorem isAlpha_noTab {ch : Char} (h : isAlpha ch = true) : ch ≠ ' ' ∧ ch ≠ '\t' := by
  constructor <;> rintro rfl <;> revert h <;> decide

theorem isIdent_noTab {ch : Char} (h : isIdent ch = true) : ch ≠ ' ' ∧ ch ≠ '\t' := by
  constructor <;> rintro rfl <;> revert h <;> decide

theorem isNumChar_noTab {ch : Char} (h : isNumChar ch = true) : ch ≠ ' ' ∧ ch ≠ '\t' := by
  constructor <;> rintro rfl <;> revert h <;> decide

theorem mant_noTab {m : Str} (h : Mant m) : ∀ ch ∈ m, ch ≠ ' ' ∧ ch ≠ '\t' := by
  cases h with
  | digit d m hd hm =>
    intro ch hc
    rcases List.mem_cons.mp hc with rfl | hc
    · exact isDigit_noTab hd
    · exact isNumChar_noTab (hm ch hc)
  | dot d m hd hm =>
    intro ch hc
    rcases List.mem_cons.mp hc with rfl | hc
    · decide
    · rcases List.mem_cons.mp hc with rfl | hc
      · exact isDigit_noTab hd
      · exact isNumChar_noTab (hm ch hc)

theorem num_noTab {s : Str} {n : Option Char} (h : NumReads s n) : NoTab s := by
  refine noTab_of_all fun ch hc => ?_
  have he : ∀ {e : Char}, e = 'e' ∨ e = 'E' → e ≠ ' ' ∧ e ≠ '\t' := by
    rintro e (rfl | rfl) <;> decide
  cases h with
  | hex h n h1 _ _ =>
    simp only [List.mem_cons] at hc
    rcases hc with rfl | rfl | hc
    · decide
    · decide
    · exact isHex_noTab (h1 ch hc)
  | plain m n h1 _ _ => exact mant_noTab h1 ch hc
  | exp m e k n h1 h2 h3 _ _ =>
    simp only [List.mem_append, List.mem_cons] at hc
    rcases hc with hc | rfl | hc
    · exact mant_noTab h1 ch hc
    · exact he h2
    · exact isDigit_noTab (h3 ch hc)
  | expNeg m e k n h1 h2 h3 _ _ =>
    simp only [List.mem_append, List.mem_cons] at hc
    rcases hc with hc | rfl | rfl | hc
    · exact mant_noTab h1 ch hc
    · exact he h2
    · decide
    · exact isDigit_noTab (h3 ch hc)

theorem reads_noTab {t : Token} {n : Option Char} (h : Reads t n) : NoTab (spell t) := by
  rcases h with ⟨s, rfl, h⟩ | ⟨h, _⟩
  · exact num_noTab h
  · cases t with
    | «variable» s =>
      obtain ⟨⟨c, r, rfl, h1, h2⟩, _⟩ := h
      refine noTab_of_all fun ch hc => ?_
      rcases List.mem_cons.mp hc with rfl | hc
      · rcases h1 with h1 | rfl
        · exact isAlpha_noTab h1
        · decide
      · exact isIdent_noTab (h2 ch hc)
    | numeral s => cases h
    | normalString s => exact noTab_concat (s := '"' :: s) (x := '"') (by decide)
    | charString s => exact noTab_concat (s := '\'' :: s) (x := '\'') (by decide)
    | multiLineString n s =>
      have e : spell (.multiLineString n s) = (opener n ++ s ++ ']' :: List.replicate n '=') ++ [']'] := by
        simp [spell, closer]
      rw [e]
      exact noTab_concat (by decide)
    | sheBang s => exact noTab_concat (s := s) (x := '\n') (by decide)
    | _ => exact ⟨by decide, by decide⟩

theorem tiles_tokAt {env : Env} {ts : List TokL} : ∀ {pre s : Str}, env.buf = pre ++ s → TilesR s pre.length ts →
    ∀ t ∈ ts, t.tok ≠ .eof → TokAt env t ∨ (∃ x, t.tok = .sheBang x ∧ ∃ us e, ts = us ++ [t, e]) := by
  induction ts with
  | nil => intro _ _ _ _ t h; cases h
  | cons t ts ih =>
    intro pre s hb h u hu hne
    rcases h with ⟨h, rfl, _⟩ | ⟨g, w, s', _, rfl, hg, h1, h2, h0, h4, h3⟩
    · simp only [List.mem_singleton] at hu
      subst hu
      exact absurd h hne
    · rcases List.mem_cons.mp hu with rfl | hu
      · have hw : 0 < w.length := List.length_pos_iff.mpr h0
        rcases h4 with ⟨h4, h5⟩ | ⟨x, h4, _, rfl, _⟩
        · refine .inl ⟨by omega, ?_, ?_, reads_noTab h5⟩
          · rw [hb, h2, h1]; simp; omega
          · have := slice_mid (s := env.buf) (a := pre ++ g) (g := w) (b := s') (by simp [hb])
            rw [List.length_append, ← h1, ← h2] at this
            rw [this, h4]
        · refine .inr ⟨x, h4, [], ?_⟩
          cases ts with
          | nil => exact h3.elim
          | cons e ts =>
            rcases h3 with ⟨_, rfl, _⟩ | ⟨g', w', s'', _, h5, _, _, _, h6, _⟩
            · exact ⟨e, rfl⟩
            · have := congrArg List.length h5
              simp only [List.length_nil, List.length_append] at this
              exact absurd (List.length_eq_zero_iff.mp (by omega)) h6
      · have e : (pre ++ g ++ w).length = t.r := by simp; omega
        rcases ih (pre := pre ++ g ++ w) (s := s') (by simp [hb]) (by rw [e]; exact h3) u hu hne with h | ⟨x, h5, us, e, h6⟩
        · exact .inl h
        · exact .inr ⟨x, h5, t :: us, e, by rw [h6]; rfl⟩

/-! ### The source text of items -/

theorem Tile.shorter {c : Config} {a b : Nat} {ts ts' : List TokL} {is : List Item} (h : Tile c a ts is b ts') :
    ts'.length ≤ ts.length := by
  induction h with
  | nil => exact Nat.le_refl _
  | here _ ih => exact ih
  | gap _ ih => exact ih
  | extra _ ih => exact ih
  | lit _ _ _ ih => exact Nat.le_succ_of_le ih
  | trailNone _ _ ih => exact ih
  | trail _ _ _ _ ih => exact Nat.le_succ_of_le ih

theorem rawText_cons {env : Env} {i : Item} {is : List Item} {s t : Str} (h : i.raw env = .ok s) (h' : rawText env is = .ok t) :
    rawText env (i :: is) = .ok (s ++ t) := by
  simp only [rawText, h, h', Res.bind_ok, Res.pure_eq]

/-- The source text of tiles is the text between their ends. -/
theorem Tile.raw {env : Env} {c : Config} {a b : Nat} {ts ts' : List TokL} {is : List Item} (h : Tile c a ts is b ts') :
    ∀ us, ts = us ++ ts' → (∀ t ∈ us, TokAt env t) → RowFrom env a ts → a ≤ env.buf.length →
      a ≤ b ∧ b ≤ env.buf.length ∧ rawText env is = .ok (slice env.buf a b) := by
  induction h with
  | nil => intro us _ _ _ ha; exact ⟨Nat.le_refl _, ha, by rw [slice_same]; rfl⟩
  | @here a b ts ts' h is _ ih =>
    intro us hu ht hr ha
    obtain ⟨h1, h2, h3⟩ := ih us hu ht hr ha
    refine ⟨h1, h2, ?_⟩
    have := rawText_cons (i := .gap ⟨a, a⟩ h) (env := env) (substr_cut (Nat.le_refl a) ha) h3
    rwa [slice_same, List.nil_append] at this
  | @gap a b t ts ts' h is _ ih =>
    intro us hu ht hr ha
    have hle := hr.1.le
    have h0 := hr.2.1
    have h0' := hr.2.2.1
    obtain ⟨h1, h2, h3⟩ := ih us hu ht ⟨.here (by omega), hr.2⟩ (by omega)
    refine ⟨by omega, h2, ?_⟩
    have := rawText_cons (i := .gap ⟨a, t.l⟩ h) (env := env) (substr_cut hle (by omega)) h3
    rwa [slice_append hle h1 h2] at this
  | @extra a b ts ts' h is _ ih =>
    intro us hu ht hr ha
    obtain ⟨h1, h2, h3⟩ := ih us hu ht hr ha
    exact ⟨h1, h2, rawText_cons (i := .extra h) (env := env) (s := []) rfl h3⟩
  | @lit b t ts ts' src out is hs _ hT ih =>
    intro us hu ht hr ha
    cases us with
    | nil =>
      have := hT.shorter
      rw [List.nil_append] at hu
      rw [← hu, List.length_cons] at this
      omega
    | cons v us =>
      simp only [List.cons_append, List.cons.injEq] at hu
      obtain ⟨rfl, rfl⟩ := hu
      have hk := ht t List.mem_cons_self
      obtain ⟨h1, h2, h3⟩ := ih us rfl (fun u hu => ht u (List.mem_cons_of_mem _ hu)) hr.2.2.2 hk.le
      have := hk.lt
      refine ⟨by omega, h2, ?_⟩
      have := rawText_cons (i := .lit src out) (env := env) (s := src) rfl h3
      rw [this, hs, ← hk.text, slice_append (by omega) h1 h2]
  | @trailNone a b ts ts' isF out is _ _ ih =>
    intro us hu ht hr ha
    obtain ⟨h1, h2, h3⟩ := ih us hu ht hr ha
    exact ⟨h1, h2, rawText_cons (i := .trail isF [] out) (env := env) (s := []) rfl h3⟩
  | @trail b t ts ts' out is _ _ _ hT ih =>
    intro us hu ht hr ha
    cases us with
    | nil =>
      have := hT.shorter
      rw [List.nil_append] at hu
      rw [← hu, List.length_cons] at this
      omega
    | cons v us =>
      simp only [List.cons_append, List.cons.injEq] at hu
      obtain ⟨rfl, rfl⟩ := hu
      have hk := ht t List.mem_cons_self
      obtain ⟨h1, h2, h3⟩ := ih us rfl (fun u hu => ht u (List.mem_cons_of_mem _ hu)) hr.2.2.2 hk.le
      have := hk.lt
      refine ⟨by omega, h2, ?_⟩
      have := rawText_cons (i := .trail true (spell t.tok) out) (env := env) (s := spell t.tok) rfl h3
      rw [this, ← hk.text, slice_append (by omega) h1 h2]

theorem rowFrom_cut {env : Env} {us rest : List TokL} (tk : Token) : ∀ {p : Nat}, p ≤ env.buf.length → RowFrom env p (us ++ rest) →
    ∃ e, RowFrom env p (us ++ [⟨e, tk, e⟩]) := by
  induction us with
  | nil => intro p hp _; exact ⟨p, .here hp, Nat.le_refl _, hp, trivial⟩
  | cons u us ih =>
    intro p _ h
    obtain ⟨e, he⟩ := ih h.2.2.1 h.2.2.2
    exact ⟨e, h.1, h.2.1, h.2.2.1, he⟩

/-- The source text of a part is the text of its span. -/
theorem good_raw {env : Env} {c : Config} {x : Cst TokL} (hg : Good c x) (ht : ∀ t ∈ x.yield, TokAt env t) {p : Nat}
    {rest : List TokL} (hr : RowFrom env p (x.yield ++ rest)) :
    rawText env ((placeC x).items c) = .ok (slice env.buf (placeC x).span.l (placeC x).span.r) := by
  obtain ⟨⟨t, ts, e1, e2⟩, h⟩ := hg
  have hl : t.l ≤ env.buf.length := by
    have := ht t (by rw [e1]; exact List.mem_cons_self)
    exact Nat.le_trans (Nat.le_of_lt this.lt) this.le
  have hr' : RowFrom env t.l (x.yield ++ rest) := by
    rw [e1] at hr ⊢
    exact ⟨.here hl, hr.2⟩
  obtain ⟨e, he⟩ := rowFrom_cut .closeCurly hl hr'
  rw [← e2] at he hl
  exact ((h [⟨e, .closeCurly, e⟩] (fun _ => ⟨_, _, rfl, rfl⟩)).raw x.yield rfl ht he hl).2.2

/-! ### Blocks -/

/-- The nodes follow one another from `p` to `r`, with the recorded gap before each of them. -/
def Chain : Nat → List Loc → List Node → Nat → Prop
  | p, [], [], r => p = r
  | p, l :: ls, n :: ns, r => l = ⟨p, n.span.l⟩ ∧ p ≤ n.span.l ∧ Chain n.span.r ls ns r
  | _, _, _, _ => False

/-- The nonterminals of blocks and statements. -/
def stmtNT : NT → Bool
  | .block | .stats | .stat | .statStartsMayEndsPar | .statMayEndsPar | .statNoPar | .retStat | .label
  | .functionCallNoStartsMayEndsPar | .functionCallStartsMayEndsPar => true
  | _ => false

/-- A node that is copied when it is out of range. -/
def Tag.isStmt (t : Tag) : Bool :=
  t.checksRange && match t with
    | .charStringLiteral _ | .sheBang _ => false
    | _ => true

def Sym.isStmt : Sym → Bool
  | .n a | .list a => stmtNT a
  | _ => false

theorem chains_stmt : ∀ p ∈ chains, stmtNT p.1 = true → stmtNT p.2 = true := by decide +kernel

theorem prods_stmt : ∀ p ∈ prods, stmtNT p.1 = true → p.2.1.isStmt = true := by decide +kernel

theorem prods_block : ∀ p ∈ prods, (p.2.1 = .statementList → p.2.2.all Sym.isStmt = true) ∧
    (p.2.1 = .statsRetStat → p.2.2 = [.n .stats, .n .retStat]) := by decide +kernel

theorem leafTag_stmt {t : Token} {a : NT} {tag : Tag} (h : leafTag t = some (a, tag)) : stmtNT a = false := by
  unfold leafTag at h
  split at h <;> cases h <;> rfl

theorem derives_stmt : ∀ {n : NT} {x : C}, Derives n x → stmtNT n = true → ∃ tag xs, x = .node tag xs ∧ tag.isStmt = true
  | _, _, .chain hc h, hn => derives_stmt h (chains_stmt _ hc hn)
  | _, _, .prod hp hm, hn => ⟨_, _, rfl, prods_stmt _ hp hn⟩
  | _, _, .leaf hl, hn => by rw [leafTag_stmt hl] at hn; cases hn

theorem matches_stmt : ∀ {ss : List Sym} {cs : List C}, ss.all Sym.isStmt = true → Matches ss cs →
    ∀ y ∈ cs, ∃ tag xs, y = .node tag xs ∧ tag.isStmt = true
  | _, _, _, .nil, _, h => nomatch h
  | _, _, hs, .t hm, y, h => by simp [Sym.isStmt] at hs
  | _, _, hs, .n hd hm, y, h => by
    simp only [List.all_cons, Bool.and_eq_true] at hs
    rcases List.mem_cons.mp h with rfl | h
    · exact derives_stmt hd hs.1
    · exact matches_stmt hs.2 hm _ h
  | _, _, hs, .listLast hd hm, y, h => by
    simp only [List.all_cons, Bool.and_eq_true] at hs
    rcases List.mem_cons.mp h with rfl | h
    · exact derives_stmt hd hs.1
    · exact matches_stmt hs.2 hm _ h
  | _, _, hs, .listCons hd hm, y, h => by
    rcases List.mem_cons.mp h with rfl | h
    · simp only [List.all_cons, Bool.and_eq_true] at hs
      exact derives_stmt hd hs.1
    · exact matches_stmt hs hm _ h
  | _, _, hs, .sepLast hd hm, y, h => by simp [Sym.isStmt] at hs
  | _, _, hs, .sepCons hd hm, y, h => by simp [Sym.isStmt] at hs
  | _, _, hs, .sepEndLast hd hm, y, h => by simp [Sym.isStmt] at hs
  | _, _, hs, .sepEndTrail hd _ hm, y, h => by simp [Sym.isStmt] at hs
  | _, _, hs, .sepEndCons hd _ hm, y, h => by simp [Sym.isStmt] at hs

theorem setSeps_isStmt (ss : List Str) (t : Tag) : (t.setSeps ss).isStmt = t.isStmt := by cases t <;> rfl

theorem buildNode_isStmt (tag : Tag) (ps : List Part) : (buildNode tag ps).tag.isStmt = tag.isStmt := by
  unfold buildNode
  split
  · exact setSeps_isStmt _ _
  · split <;> rfl

theorem buildNode_tag_laid {tag t : Tag} {ps : List Part} (h : (buildNode tag ps).tag = t) (hs : t.seps = none) : tag = t := by
  unfold buildNode at h
  split at h
  · subst h
    cases tag <;> simp [Tag.seps, Node.tag, Tag.setSeps] at hs ⊢
  · split at h <;> exact h

mutual
/-- Every node covers its source text, and the statements of blocks follow one another. -/
def Node.Laid (env : Env) (c : Config) : Node → Prop
  | .mk tag span locs kids =>
    (span.l < span.r ∧ span.r ≤ env.buf.length ∧ NoTab (env.buf.take span.r)) ∧
    rawText env (Node.items c (.mk tag span locs kids)) = .ok (slice env.buf span.l span.r) ∧
    (tag = .statementList → Chain span.l locs kids span.r ∧ ∀ k ∈ kids, k.tag.isStmt = true) ∧
    (tag = .statsRetStat → ∃ k m, kids = [k, m] ∧ locs = [⟨k.span.r, m.span.l⟩] ∧ k.span.l = span.l ∧ m.span.r = span.r ∧
      k.span.r ≤ m.span.l ∧ k.tag.isStmt = true ∧ m.tag.isStmt = true) ∧
    Node.LaidAll env c kids
/-- Each of the trees covers its source text. -/
def Node.LaidAll (env : Env) (c : Config) : List Node → Prop
  | [] => True
  | n :: ns => n.Laid env c ∧ Node.LaidAll env c ns
end

theorem laidAll_iff {env : Env} {c : Config} {ns : List Node} : Node.LaidAll env c ns ↔ ∀ n ∈ ns, n.Laid env c := by
  induction ns with
  | nil => simp [Node.LaidAll]
  | cons n ns ih => simp [Node.LaidAll, ih]

theorem Node.Laid.basic : ∀ {env : Env} {c : Config} {n : Node}, n.Laid env c →
    n.span.l < n.span.r ∧ n.span.r ≤ env.buf.length ∧ NoTab (env.buf.take n.span.r)
  | _, _, .mk _ _ _ _, h => h.1

theorem Node.Laid.raw : ∀ {env : Env} {c : Config} {n : Node}, n.Laid env c →
    rawText env (n.items c) = .ok (slice env.buf n.span.l n.span.r)
  | _, _, .mk _ _ _ _, h => h.2.1

theorem Node.Laid.kids : ∀ {env : Env} {c : Config} {n : Node}, n.Laid env c → ∀ k ∈ n.kids, k.Laid env c
  | _, _, .mk _ _ _ _, h => laidAll_iff.1 h.2.2.2.2

/-- The part is a token of the source or covers its source text. -/
def Part.Laid (env : Env) (c : Config) : Part → Prop
  | .tok t => TokAt env t
  | .node n => n.Laid env c

theorem TokAt.noTab {env : Env} {t : TokL} (h : TokAt env t) : NoTab (env.buf.take t.r) := by
  have h1 := h.lt
  have h2 := h.le
  have e := slice_append (s := env.buf) (Nat.zero_le t.l) (Nat.le_of_lt h.lt) h.le
  rw [slice_take, slice_take, h.text] at e
  have hne : spell t.tok ≠ [] := by
    intro e
    have := slice_length (s := env.buf) (a := t.l) h.le
    rw [h.text, e, List.length_nil] at this
    omega
  have hl := h.last
  unfold NoTab at hl ⊢
  rw [← e, List.getLast?_append]
  cases hx : (spell t.tok).getLast? with
  | none => exact absurd (List.getLast?_eq_none_iff.mp hx) hne
  | some x => rw [hx] at hl; simpa using hl

theorem Part.Laid.basic {env : Env} {c : Config} {q : Part} (h : q.Laid env c) :
    q.span.l < q.span.r ∧ q.span.r ≤ env.buf.length ∧ NoTab (env.buf.take q.span.r) := by
  cases q with
  | tok t => exact ⟨TokAt.lt h, TokAt.le h, TokAt.noTab h⟩
  | node n => exact Node.Laid.basic h

theorem parts_laid {env : Env} {c : Config} {qs : List Part} (h : ∀ q ∈ qs, q.Laid env c) :
    Node.LaidAll env c (qs.filterMap Part.node?) := by
  induction qs with
  | nil => trivial
  | cons q qs ih =>
    have i := ih fun x hx => h x (List.mem_cons_of_mem _ hx)
    have hq := h q List.mem_cons_self
    cases q with
    | tok t => exact i
    | node n => exact ⟨hq, i⟩

theorem parts_chain {env : Env} {qs : List Part} : ∀ {p : Nat} {q : Part}, PartsFrom env p (q :: qs) →
    (∀ x ∈ q :: qs, ∃ n, x = .node n) → Chain p (⟨p, q.span.l⟩ :: gapsOf (q :: qs)) ((q :: qs).filterMap Part.node?)
      (endParts p (q :: qs)) := by
  induction qs with
  | nil =>
    intro p q h hn
    obtain ⟨n, rfl⟩ := hn q List.mem_cons_self
    exact ⟨rfl, h.1.le, rfl⟩
  | cons q' qs ih =>
    intro p q h hn
    obtain ⟨n, rfl⟩ := hn q List.mem_cons_self
    exact ⟨rfl, h.1.le, ih h.2.2.2.2 fun x hx => hn x (List.mem_cons_of_mem _ hx)⟩

theorem endParts_mem (p : Nat) {q : Part} {qs : List Part} : ∃ x ∈ q :: qs, endParts p (q :: qs) = x.span.r := by
  induction qs generalizing p q with
  | nil => exact ⟨q, List.mem_cons_self, rfl⟩
  | cons q' qs ih =>
    obtain ⟨x, hx, e⟩ := ih q.span.r (q := q')
    exact ⟨x, List.mem_cons_of_mem _ hx, e⟩

theorem placeAll_mem {xs : List (Cst TokL)} {q : Part} (h : q ∈ placeAll xs) : ∃ x ∈ xs, q = placeC x := by
  induction xs with
  | nil => cases h
  | cons x xs ih =>
    rcases List.mem_cons.mp h with rfl | h
    · exact ⟨x, List.mem_cons_self, rfl⟩
    · obtain ⟨y, hy, e⟩ := ih h
      exact ⟨y, List.mem_cons_of_mem _ hy, e⟩

theorem parts_stmt {xs : List (Cst TokL)} (h : ∀ y ∈ stripAll xs, ∃ tag ys, y = .node tag ys ∧ tag.isStmt = true) :
    ∀ q ∈ placeAll xs, ∃ n, q = .node n ∧ n.tag.isStmt = true := by
  intro q hq
  obtain ⟨x, hx, rfl⟩ := placeAll_mem hq
  obtain ⟨tag, ys, e, hs⟩ := h _ (mem_stripAll hx)
  obtain ⟨zs, rfl, _⟩ := strip_node e
  exact ⟨_, rfl, by rw [buildNode_isStmt]; exact hs⟩

mutual
theorem place_laid (env : Env) (c : Config) : ∀ (x : Cst TokL), ((∃ t, strip x = .tok t) ∨ ∃ n, Derives n (strip x)) →
    (∀ t ∈ x.yield, TokEnd t.tok ∧ TokAt env t) → ∀ (p : Nat) (rest : List TokL), RowFrom env p (x.yield ++ rest) →
    (placeC x).Laid env c
  | .tok t, _, ht, p, rest, h => (ht t (by simp [Cst.yield])).2
  | .node tag xs, h, ht, p, rest, hr => by
    have hg := place_good c (.node tag xs) h
    have hraw := good_raw hg (fun t hm => (ht t hm).2) hr
    rcases h with ⟨t, h⟩ | ⟨n, h⟩
    · simp [strip] at h
    · have hne : xs ≠ [] := by
        obtain ⟨⟨t, ts, e1, _⟩, _⟩ := hg
        rintro rfl
        simp [Cst.yield, Cst.yields] at e1
      have hall : ∀ y ∈ stripAll xs, (∃ t, y = .tok t) ∨ ∃ n, Derives n y := by
        rcases derives_inv h with ⟨a, tag', ss, cs, e, hp, hm⟩ | ⟨a, tag', t, e, hl⟩
        · simp only [strip, Cst.node.injEq] at e
          rw [e.2]
          exact matches_all hm
        · simp only [strip, Cst.node.injEq] at e
          rw [e.2]
          intro y hy
          exact .inl ⟨t, by simpa using hy⟩
      simp only [Cst.yield] at ht hr
      obtain ⟨k1, k2⟩ := place_lives env xs hall (fun t hm => (ht t hm).1) p rest hr
      have k3 := place_laids env c xs hall ht p rest hr
      have hlist : tag = .statementList → ∀ q ∈ placeAll xs, ∃ n, q = .node n ∧ n.tag.isStmt = true := by
        intro htag
        refine parts_stmt ?_
        rcases derives_inv h with ⟨a, tag', ss, cs, e, hp, hm⟩ | ⟨a, tag', t, e, hl⟩
        · simp only [strip, Cst.node.injEq] at e
          rw [e.2]
          exact matches_stmt ((prods_block _ hp).1 (by rw [← htag, e.1])) hm
        · simp only [strip, Cst.node.injEq] at e
          have := (leafTag_text hl).1
          rw [← e.1, htag] at this
          cases this
      have hret : tag = .statsRetStat → ∃ k m, placeAll xs = [.node k, .node m] ∧ k.tag.isStmt = true ∧ m.tag.isStmt = true := by
        intro htag
        rcases derives_inv h with ⟨a, tag', ss, cs, e, hp, hm⟩ | ⟨a, tag', t, e, hl⟩
        · simp only [strip, Cst.node.injEq] at e
          have hss := (prods_block _ hp).2 (by rw [← htag, e.1])
          simp only at hss
          subst hss
          have hst := parts_stmt (xs := xs) (by rw [e.2]; exact matches_stmt (by rfl) hm)
          generalize he : stripAll xs = ys at e
          obtain ⟨_, rfl⟩ := e
          cases hm with
          | n hd1 hm =>
            cases hm with
            | n hd2 hm =>
              cases hm
              obtain ⟨x1, xs1, rfl, _, e2⟩ := stripAll_cons he
              obtain ⟨x2, xs2, rfl, _, e4⟩ := stripAll_cons e2
              rw [stripAll_nil e4] at hst ⊢
              obtain ⟨k, e5, e6⟩ := hst (placeC x1) (by simp [placeAll])
              obtain ⟨m, e7, e8⟩ := hst (placeC x2) (by simp [placeAll])
              exact ⟨k, m, by simp [placeAll, e5, e7], e6, e8⟩
        · simp only [strip, Cst.node.injEq] at e
          have := (leafTag_text hl).1
          rw [← e.1, htag] at this
          cases this
      obtain ⟨x, ys, rfl⟩ := List.exists_cons_of_ne_nil hne
      have hx := (k3 (placeC x) (by simp [placeAll])).basic
      have hb := partsFrom_bounds k1.2.2.1 k1.2.2.2.2
      obtain ⟨z, hz, hze⟩ := endParts_mem p (q := placeC x) (qs := placeAll ys)
      have hzb := (k3 z hz).basic
      show (buildNode tag (placeAll (x :: ys))).Laid env c
      have hraw : rawText env ((buildNode tag (placeAll (x :: ys))).items c) =
        .ok (slice env.buf (buildNode tag (placeAll (x :: ys))).span.l (buildNode tag (placeAll (x :: ys))).span.r) := hraw
      obtain ⟨t, ls, e⟩ := buildNode_parts tag (placeC x) (placeAll ys) p
      have e' : buildNode tag (placeAll (x :: ys)) = _ := e
      rw [e'] at hraw ⊢
      refine ⟨⟨?_, ?_, ?_⟩, hraw, ?_, ?_, parts_laid k3⟩
      · show (placeC x).span.l < endParts (placeC x).span.r (placeAll ys)
        omega
      · exact hb.2
      · rw [hze]; exact hzb.2.2
      · rintro rfl
        have ht' : tag = .statementList := buildNode_tag_laid (congrArg Node.tag e) rfl
        subst ht'
        have hl := hlist rfl
        have hls : ls = ⟨(placeC x).span.l, (placeC x).span.l⟩ :: gapsOf (placeAll (x :: ys)) := by
          have := congrArg Node.locs e
          exact this.symm
        rw [hls]
        refine ⟨?_, ?_⟩
        · have : PartsFrom env (placeC x).span.l (placeC x :: placeAll ys) := ⟨.here (by omega), k1.2⟩
          exact parts_chain this fun q hq => (hl q hq).imp fun n h => h.1
        · intro k hk
          obtain ⟨q, hq, e2⟩ := List.mem_filterMap.mp hk
          obtain ⟨n, rfl, h2⟩ := hl q hq
          cases e2
          exact h2
      · rintro rfl
        have ht' : tag = .statsRetStat := buildNode_tag_laid (congrArg Node.tag e) rfl
        subst ht'
        obtain ⟨k, m, hkm, hk, hm⟩ := hret rfl
        have hls : ls = gapsOf (placeAll (x :: ys)) := by
          have := congrArg Node.locs e
          exact this.symm
        rw [hls]
        simp only [placeAll, List.cons.injEq] at hkm
        obtain ⟨e1, e2⟩ := hkm
        simp only [placeAll] at k1 ⊢
        rw [e1, e2] at k1 ⊢
        refine ⟨k, m, rfl, ?_, rfl, rfl, k1.2.2.2.2.1.le, hk, hm⟩
        simp only [gapsOf, Part.span]
theorem place_laids (env : Env) (c : Config) : ∀ (xs : List (Cst TokL)),
    (∀ y ∈ stripAll xs, (∃ t, y = .tok t) ∨ ∃ n, Derives n y) → (∀ t ∈ Cst.yields xs, TokEnd t.tok ∧ TokAt env t) →
    ∀ (p : Nat) (rest : List TokL), RowFrom env p (Cst.yields xs ++ rest) → ∀ q ∈ placeAll xs, q.Laid env c
  | [], _, _, p, rest, h => fun _ h => nomatch h
  | x :: xs, hy, ht, p, rest, h => by
    simp only [stripAll] at hy
    simp only [Cst.yields, List.append_assoc] at h
    simp only [Cst.yields] at ht
    obtain ⟨h1, h2, h3, h4, h5⟩ := place_live env x (hy _ List.mem_cons_self)
      (fun t hm => (ht t (List.mem_append_left _ hm)).1) p _ h
    have k := place_laids env c xs (fun z hz => hy z (List.mem_cons_of_mem _ hz))
      (fun t hm => ht t (List.mem_append_right _ hm)) _ _ h5
    intro q hq
    rcases List.mem_cons.mp hq with rfl | hq
    · exact place_laid env c x (hy _ List.mem_cons_self) (fun t hm => ht t (List.mem_append_left _ hm)) p _ h
    · exact k q hq
end

/-! ### Whole sources -/

/-- Not the shebang token. -/
def Token.notSb : Token → Bool
  | .sheBang _ => false
  | _ => true

def Sym.noSb : Sym → Bool
  | .t tok => tok.notSb
  | .n a | .list a | .sepEnd a => decide (a ≠ .sheBangLine)
  | .sep a tok => decide (a ≠ .sheBangLine) && tok.notSb

theorem chains_noSb : ∀ p ∈ chains, p.2 ≠ .sheBangLine := by decide +kernel

theorem prods_noSb : ∀ p ∈ prods, p.2.2.all Sym.noSb = true := by decide +kernel

theorem leafTag_noSb {t : Token} {a : NT} {tag : Tag} (h : leafTag t = some (a, tag)) (ha : a ≠ .sheBangLine) : t.notSb = true := by
  unfold leafTag at h
  split at h <;> cases h <;> first | rfl | exact absurd rfl ha

theorem fieldSep_noSb {t : Token} (h : isFieldSep t = true) : t.notSb = true := by
  simp only [isFieldSep, Bool.or_eq_true, decide_eq_true_eq] at h
  rcases h with rfl | rfl <;> rfl

mutual
theorem derives_noSb : ∀ {n : NT} {x : C}, Derives n x → n ≠ .sheBangLine → ∀ t ∈ x.yield, t.notSb = true
  | _, _, .chain hc h, _ => derives_noSb h (chains_noSb _ hc)
  | _, _, .prod hp hm, _ => matches_noSb hm (prods_noSb _ hp)
  | _, _, .leaf hl, hn => by
    intro t ht
    simp only [Cst.yield, Cst.yields, List.append_nil, List.mem_singleton] at ht
    subst ht
    exact leafTag_noSb hl hn
theorem matches_noSb : ∀ {ss : List Sym} {cs : List C}, Matches ss cs → ss.all Sym.noSb = true → ∀ t ∈ Cst.yields cs, t.notSb = true
  | _, _, .nil, _, t, ht => nomatch ht
  | _, _, .t hm, hs, t, ht => by
    simp only [List.all_cons, Bool.and_eq_true, Sym.noSb] at hs
    simp only [Cst.yields, Cst.yield, List.cons_append, List.nil_append, List.mem_cons] at ht
    rcases ht with rfl | ht
    · exact hs.1
    · exact matches_noSb hm hs.2 t ht
  | _, _, .n hd hm, hs, t, ht => by
    simp only [List.all_cons, Bool.and_eq_true, Sym.noSb, decide_eq_true_eq] at hs
    rcases List.mem_append.mp ht with ht | ht
    · exact derives_noSb hd hs.1 t ht
    · exact matches_noSb hm hs.2 t ht
  | _, _, .listLast hd hm, hs, t, ht => by
    simp only [List.all_cons, Bool.and_eq_true, Sym.noSb, decide_eq_true_eq] at hs
    rcases List.mem_append.mp ht with ht | ht
    · exact derives_noSb hd hs.1 t ht
    · exact matches_noSb hm hs.2 t ht
  | _, _, .listCons hd hm, hs, t, ht => by
    rcases List.mem_append.mp ht with ht | ht
    · simp only [List.all_cons, Bool.and_eq_true, Sym.noSb, decide_eq_true_eq] at hs
      exact derives_noSb hd hs.1 t ht
    · exact matches_noSb hm hs t ht
  | _, _, .sepLast hd hm, hs, t, ht => by
    simp only [List.all_cons, Bool.and_eq_true, Sym.noSb, decide_eq_true_eq] at hs
    rcases List.mem_append.mp ht with ht | ht
    · exact derives_noSb hd hs.1.1 t ht
    · exact matches_noSb hm hs.2 t ht
  | _, _, .sepCons hd hm, hs, t, ht => by
    rcases List.mem_append.mp ht with ht | ht
    · simp only [List.all_cons, Bool.and_eq_true, Sym.noSb, decide_eq_true_eq] at hs
      exact derives_noSb hd hs.1.1 t ht
    · simp only [Cst.yields, Cst.yield, List.cons_append, List.nil_append, List.mem_cons] at ht
      rcases ht with rfl | ht
      · simp only [List.all_cons, Bool.and_eq_true, Sym.noSb, decide_eq_true_eq] at hs
        exact hs.1.2
      · exact matches_noSb hm hs t ht
  | _, _, .sepEndLast hd hm, hs, t, ht => by
    simp only [List.all_cons, Bool.and_eq_true, Sym.noSb, decide_eq_true_eq] at hs
    rcases List.mem_append.mp ht with ht | ht
    · exact derives_noSb hd hs.1 t ht
    · exact matches_noSb hm hs.2 t ht
  | _, _, .sepEndTrail hd hf hm, hs, t, ht => by
    simp only [List.all_cons, Bool.and_eq_true, Sym.noSb, decide_eq_true_eq] at hs
    rcases List.mem_append.mp ht with ht | ht
    · exact derives_noSb hd hs.1 t ht
    · simp only [Cst.yields, Cst.yield, List.cons_append, List.nil_append, List.mem_cons] at ht
      rcases ht with rfl | ht
      · exact fieldSep_noSb hf
      · exact matches_noSb hm hs.2 t ht
  | _, _, .sepEndCons hd hf hm, hs, t, ht => by
    rcases List.mem_append.mp ht with ht | ht
    · simp only [List.all_cons, Bool.and_eq_true, Sym.noSb, decide_eq_true_eq] at hs
      exact derives_noSb hd hs.1 t ht
    · simp only [Cst.yields, Cst.yield, List.cons_append, List.nil_append, List.mem_cons] at ht
      rcases ht with rfl | ht
      · exact fieldSep_noSb hf
      · exact matches_noSb hm hs t ht
end

theorem attach_laid (env : Env) (c : Config) {n : NT} (hn : n ≠ .fieldList) {x : C} (h : Derives n x) {ps : List TokL}
    {rest : List Token} (hp : ps.map (·.tok) = x.yield ++ rest) {p : Nat} (hr : RowFrom env p ps)
    (ht : ∀ t ∈ (attach x ps).1.yield, TokEnd t.tok ∧ TokAt env t) :
    (placeNode (attach x ps).1).Laid env c := by
  obtain ⟨h1, h2, h3⟩ := attach_ok x ps rest hp
  obtain ⟨_, _, _, h4, _⟩ := attach_good Config.default hn h hp
  rw [h2] at hr
  have k := place_laid env c (attach x ps).1 (.inr ⟨n, by rw [h1]; exact h⟩) ht p _ hr
  rw [h4] at k
  exact k

theorem attach_stmt {x : C} (h : Derives .block x) {ps : List TokL} {rest : List Token}
    (hp : ps.map (·.tok) = x.yield ++ rest) : (placeNode (attach x ps).1).tag.isStmt = true := by
  obtain ⟨h1, h2, h3⟩ := attach_ok x ps rest hp
  obtain ⟨tag, xs, rfl, hs⟩ := derives_stmt h rfl
  obtain ⟨ys, e, _⟩ := strip_node h1
  rw [e]
  show (buildNode tag (placeAll ys)).tag.isStmt = true
  rw [buildNode_isStmt]
  exact hs

/-- What the tree of a parsed source looks like at the top. -/
inductive TopLaid (env : Env) (c : Config) : Node → Prop
  | empty (sp : Loc) : TopLaid env c (.mk .chunk sp [⟨0, env.buf.length⟩, ⟨env.buf.length, env.buf.length⟩]
      [.mk .statementList ⟨env.buf.length, env.buf.length⟩ [] []])
  | line (sp : Loc) (ls : List Loc) (x : Str) (a : Loc) : TopLaid env c (.mk .chunk sp ls [.mk (.sheBang x) a [] []])
  | block (sp : Loc) (n : Node) : n.Laid env c → n.tag.isStmt = true →
      TopLaid env c (.mk .chunk sp [⟨0, n.span.l⟩, ⟨n.span.r, env.buf.length⟩] [n])
  | both (sp : Loc) (x : Str) (a : Loc) (n : Node) : n.Laid env c → n.tag.isStmt = true → a.l ≤ a.r → a.r ≤ n.span.l →
      slice env.buf a.l a.r = x ++ ['\n'] →
      TopLaid env c (.mk .sheBangChunk sp [⟨0, a.l⟩, ⟨a.r, n.span.l⟩, ⟨n.span.r, env.buf.length⟩] [.mk (.sheBang x) a [] [], n])

theorem parseLua_laid {src : Str} {tree : Node} (h : parseLua src = some tree) (pr : Option (Nat × Nat)) (c : Config) :
    TopLaid ⟨src, pr⟩ c tree := by
  unfold parseLua at h
  simp only [Option.bind_eq_bind, Option.bind_eq_some_iff, Option.some.injEq, Prod.exists] at h
  obtain ⟨toks, hlex, sb, b, hc, rfl⟩ := h
  obtain ⟨h1, h2, h3⟩ := parseChunk_sound hc
  have hT := lexFrom_tilesR 0 src _ hlex
  have hrow : RowFrom ⟨src, pr⟩ 0 toks := rowFrom_tiles (env := ⟨src, pr⟩) (pre := []) (s := src) rfl hT
  have hat := tiles_tokAt (env := ⟨src, pr⟩) (pre := []) (s := src) rfl hT
  have hend : ∀ t ∈ toks, t.tok ≠ .eof → TokEnd t.tok := by
    intro t ht hne
    rcases lexFrom_tokOk 0 src _ hlex t ht with h | ⟨n, h⟩
    · exact absurd h hne
    · exact reads_end h
  have hsplit : ∃ us e, toks = us ++ [e] ∧ us.map (·.tok) = Cst.yields (sb.toList ++ b.toList) ∧ e.tok = .eof := by
    have := List.map_eq_append_iff.mp h3
    obtain ⟨us, vs, rfl, e1, e2⟩ := this
    obtain ⟨e, rfl, e3⟩ : ∃ e, vs = [e] ∧ e.tok = .eof := by
      cases vs with
      | nil => simp at e2
      | cons v vs =>
        cases vs with
        | nil => exact ⟨v, rfl, by simpa using e2⟩
        | cons w ws => simp at e2
    exact ⟨us, e, rfl, e1, e3⟩
  obtain ⟨us, e, rfl, he1, he2⟩ := hsplit
  obtain ⟨te1, te2⟩ := tiles_eof hT
  have hne : ∀ t ∈ Cst.yields (sb.toList ++ b.toList), t ≠ .eof := by
    intro t ht
    rw [← he1] at ht
    obtain ⟨u, hu, rfl⟩ := List.mem_map.mp ht
    exact te1 u hu
  have hblk : ∀ (x : C) (ps : List TokL) (rest : List Token), Derives .block x → ps.map (·.tok) = x.yield ++ rest →
      (∀ t ∈ ps, t ∈ us ++ [e]) → (∀ t ∈ x.yield, t ≠ .eof) →
      ∀ t ∈ (attach x ps).1.yield, TokEnd t.tok ∧ TokAt ⟨src, pr⟩ t := by
    intro x ps rest hd hp hm hx t ht
    obtain ⟨a1, a2, a3⟩ := attach_ok x ps rest hp
    have ex : (attach x ps).1.yield.map (·.tok) = x.yield := by
      have := hp
      rw [a2, List.map_append, a3] at this
      exact List.append_cancel_right this
    have hmem : t.tok ∈ x.yield := by rw [← ex]; exact List.mem_map_of_mem ht
    have htk : t ∈ us ++ [e] := hm t (by rw [a2]; exact List.mem_append_left _ ht)
    refine ⟨hend t htk (hx _ hmem), ?_⟩
    rcases hat t htk (hx _ hmem) with h | ⟨y, h, _⟩
    · exact h
    · have := derives_noSb hd (by decide) _ hmem
      rw [h] at this
      cases this
  cases sb with
  | none =>
    cases b with
    | none => exact .empty _
    | some x =>
      simp only [Option.toList_none, Option.toList_some, List.nil_append, Cst.yields, List.append_nil] at h3
      have hx : ∀ t ∈ x.yield, t ≠ .eof := fun t ht => hne t (by simp [Cst.yields, ht])
      have k := attach_laid ⟨src, pr⟩ c (by decide) (h2 _ rfl) h3 hrow (hblk _ _ _ (h2 _ rfl) h3 (fun _ h => h) hx)
      exact .block _ _ k (attach_stmt (h2 _ rfl) h3)
  | some s =>
    obtain ⟨w, rfl⟩ := h1 s rfl
    have hs : Derives .sheBangLine (.node (.sheBang w) [.tok (.sheBang w)]) := .leaf rfl
    cases b with
    | none =>
      simp only [Option.toList_none, Option.toList_some, List.append_nil, Cst.yields] at h3
      cases us with
      | nil =>
        simp [Cst.yield, Cst.yields] at h3
      | cons t us => exact .line _ _ _ _
    | some x =>
      simp only [Option.toList_some, Cst.yields, List.append_nil, List.singleton_append, List.append_assoc] at h3
      have hx : ∀ t ∈ x.yield, t ≠ .eof := fun t ht => hne t (by simp [Cst.yields, ht])
      cases us with
      | nil => simp [Cst.yield, Cst.yields] at h3
      | cons t us =>
        simp only [List.cons_append, List.map_cons, Cst.yield, Cst.yields, List.append_nil, List.nil_append,
          List.cons.injEq] at h3
        have hrow' := hrow.2.2.2
        have k := attach_laid ⟨src, pr⟩ c (by decide) (h2 _ rfl) h3.2 hrow'
          (hblk _ _ _ (h2 _ rfl) h3.2 (fun _ h => List.mem_cons_of_mem _ h) hx)
        obtain ⟨m', e', k1, _⟩ := attach_live ⟨src, pr⟩ (by decide) (h2 _ rfl) h3.2 hrow'
          (fun t ht => hend t (List.mem_cons_of_mem _ ht)) hx
        have htx : slice src t.l t.r = w ++ ['\n'] := by
          rcases hT with ⟨h0, _⟩ | ⟨g, u, s', _, h4, _, h5, h6, _, h7, h8⟩
          · rw [h3.1] at h0
            cases h0
          · rcases h7 with ⟨h7, _⟩ | ⟨y, _, _, rfl, _⟩
            · have := slice_mid (s := src) (a := g) (g := u) (b := s') h4
              rw [h6, h5, Nat.zero_add, this, h7, h3.1]
              rfl
            · obtain ⟨t', ts', hy, _⟩ := derives_first (h2 _ rfl)
              cases us with
              | nil =>
                have hl := congrArg List.length h3.2
                rw [hy] at hl
                simp at hl
              | cons v us =>
                rcases h8 with ⟨h8, _⟩ | ⟨g', w', s'', _, h9, _, _, _, h10, _⟩
                · exact absurd h8 (te1 v (by simp))
                · have := congrArg List.length h9
                  simp only [List.length_nil, List.length_append] at this
                  exact absurd (List.length_eq_zero_iff.mp (by omega)) h10
        have hsub := e' ▸ k1.le
        exact .both _ w ⟨t.l, t.r⟩ _ k (attach_stmt (h2 _ rfl) h3.2) hrow.2.1 hsub htx

end Luafmt
