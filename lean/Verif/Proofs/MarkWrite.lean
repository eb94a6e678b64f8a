import Verif.Proofs.MarkRuns

/-
Which literals of a node are written at the beginning of a line: the arms of the printer.
-/
namespace Luafmt
open Spec

/-! ### What a template puts at the beginning of a line -/

/-- The change of the number of open levels by an argument. -/
def El.lv (l : Nat) : El → Nat
  | .inc => l + 1
  | .dec => l - 1
  | _ => l

/-- The printer is `l` levels deeper than `k`, by `inc`; `o` is the operator whose operands are on the level `k`. -/
def Deep (k : Int) (o : Option Str) (l : Nat) (x : Ctx) : Prop :=
  x.1 = k + l ∧ ∃ s, x.2.1 = List.replicate l none ++ s ∧ s.head?.join = o

theorem Deep.zero (x : Ctx) : Deep x.1 (ctxOp x) 0 x := ⟨by simp, x.2.1, rfl, rfl⟩

theorem Deep.op {k : Int} {o : Option Str} {l : Nat} {x : Ctx} (h : Deep k o l x) : ctxOp x = if l = 0 then o else none := by
  obtain ⟨_, s, h2, h3⟩ := h
  unfold ctxOp
  rw [h2]
  cases l with
  | zero => simpa using h3
  | succ l => simp [List.replicate_succ]

theorem Deep.inc {k : Int} {o : Option Str} {l : Nat} {x : Ctx} (h : Deep k o l x) : Deep k o (l + 1) (El.inc.eff x) := by
  obtain ⟨h1, s, h2, h3⟩ := h
  refine ⟨?_, s, ?_, h3⟩
  · simp only [El.eff, h1]; omega
  · simp only [El.eff, h2, List.replicate_succ, List.cons_append]

theorem Deep.dec {k : Int} {o : Option Str} {l : Nat} {x : Ctx} (h : Deep k o (l + 1) x) : Deep k o l (El.dec.eff x) := by
  obtain ⟨h1, s, h2, h3⟩ := h
  rw [List.replicate_succ, List.cons_append] at h2
  refine ⟨?_, s, ?_, h3⟩
  · simp only [El.eff, h2, h1, List.head?_cons, beq_self_eq_true, Bool.true_or, if_true]; omega
  · simp only [El.eff, h2, List.tail_cons]

theorem Deep.up {k : Int} {o : Option Str} {l : Nat} {x : Ctx} (h : Deep k o l x) :
    Deep (k + 1) none l (El.inc.eff x) := by
  obtain ⟨h1, s, h2, h3⟩ := h
  refine ⟨?_, none :: s, ?_, rfl⟩
  · simp only [El.eff, h1]; omega
  · simp only [El.eff, h2]
    have : ∀ (l : Nat), none :: (List.replicate l (none : Option Str) ++ s) = List.replicate l none ++ none :: s := by
      intro l
      induction l with
      | zero => rfl
      | succ l ih => rw [List.replicate_succ, List.cons_append, ih]; rfl
    exact this l

/-- `f` more bodies of functions and tables are open than at the beginning. -/
def DeepF (f0 : Int) (f : Nat) (x : Ctx) : Prop := x.2.2 = f0 + f

theorem DeepF.inc {f0 : Int} {f : Nat} {x : Ctx} (h : DeepF f0 f x) : DeepF f0 (f + 1) (El.incF.eff x) := by
  unfold DeepF at h ⊢
  simp only [El.eff, h]
  omega

theorem DeepF.dec {f0 : Int} {f : Nat} {x : Ctx} (h : DeepF f0 (f + 1) x) : DeepF f0 f (El.decF.eff x) := by
  unfold DeepF at h ⊢
  simp only [El.eff, h]
  omega

/-- The literals (`none`) and children that are written directly behind a newline, with the number of the gap and
the level relative to the construct. -/
def lineStarts : Nat → Option (Nat × Nat) → List Fm → List (Nat × Nat × Option Nat)
  | _, _, [] => []
  | l, s, .el (.lit _) :: es => (match s with | some (g, d) => [(g, d, none)] | none => []) ++ lineStarts l none es
  | l, s, .el (.kid i) :: es => (match s with | some (g, d) => [(g, d, some i)] | none => []) ++ lineStarts l none es
  | l, _, .el (.hint _ _) :: es => lineStarts l none es
  | l, _, .el (.nl b g _) :: es => lineStarts l (if b then some (g, l) else none) es
  | l, s, .el .inc :: es => lineStarts (l + 1) s es
  | l + 1, s, .el .dec :: es => lineStarts l s es
  | 0, _, .el .dec :: _ => []
  | l, s, .el .incF :: es => lineStarts l s es
  | l, s, .el .decF :: es => lineStarts l s es
  | l, _, .ind _ _ _ _ :: es => lineStarts l none es

theorem lineStarts_hold {c : Config} {ms : List (Nat × Mk)} {z : List NOpt} {locs : List Loc} {ns : List Node} (k : Int)
    {op : Option Str} :
    ∀ {fms : List Fm} {x : Ctx} {p : Option Nat} {ls : List Int} {l : Nat} {s : Option (Nat × Nat)},
    FmsHold c ms z locs ns x p ls fms → Deep k op l x →
    (∀ g d, s = some (g, d) → p = some (locAt locs g).r ∧ k + d ∈ ls) →
    ∀ (g : Nat) (d : Nat) (o : Option Nat), (g, d, o) ∈ lineStarts l s fms →
      (o = none → ((locAt locs g).r, Mk.lvl (k + d)) ∈ ms) ∧
      ∀ i, o = some i → ∃ n, ns[i]? = some n ∧ (CalmAt c (locAt locs g).r false n → ((locAt locs g).r, Mk.lvl (k + d)) ∈ ms) := by
  intro fms
  induction fms with
  | nil => intro x p ls l s _ _ _ g d o h; cases h
  | cons m fms ih =>
    intro x p ls l s hH hx hs g d o hm
    have nos : ∀ {p : Option Nat} {ls : List Int} (g d : Nat), (none : Option (Nat × Nat)) = some (g, d) →
      p = some (locAt locs g).r ∧ k + d ∈ ls := fun g d h => by cases h
    cases m with
    | ind a b y body => exact ih hH.2 hx nos g d o hm
    | el e =>
      have hr := hH.2
      cases e with
      | lit str =>
        simp only [lineStarts, List.mem_append] at hm
        rcases hm with hm | hm
        · match s, hs, hm with
          | some (g', d'), hs, hm =>
            cases List.mem_singleton.1 hm
            obtain ⟨h1, h2⟩ := hs _ _ rfl
            exact ⟨fun _ => hH.1 _ h1 _ h2, fun i h => (by cases h)⟩
          | none, _, hm => cases hm
        · exact ih hr hx nos g d o hm
      | kid i =>
        simp only [lineStarts, List.mem_append] at hm
        rcases hm with hm | hm
        · match s, hs, hm with
          | some (g', d'), hs, hm =>
            cases List.mem_singleton.1 hm
            obtain ⟨h1, h2⟩ := hs _ _ rfl
            refine ⟨fun h => (by cases h), fun j h => ?_⟩
            cases h
            obtain ⟨n, hn, _, hc⟩ := hH.1
            exact ⟨n, hn, fun h => hc _ h1 _ h _ h2 fun h => by cases h⟩
          | none, _, hm => cases hm
        · exact ih hr hx nos g d o hm
      | hint i y => exact ih hr hx nos g d o hm
      | nl b i y =>
        refine ih hr hx ?_ g d o hm
        intro g' d' h
        cases b with
        | false => cases h
        | true =>
          cases h
          exact ⟨rfl, by simp [El.levels, hx.1]⟩
      | inc => exact ih hr hx.inc hs g d o hm
      | dec =>
        cases l with
        | zero => cases hm
        | succ l => exact ih hr hx.dec hs g d o hm
      | incF => exact ih hr hx hs g d o hm
      | decF => exact ih hr hx hs g d o hm

/-- The position behind an argument: unknown, the start of the construct (`some none`) or behind a gap. -/
def El.src (q : Option (Option Nat)) : El → Option (Option Nat)
  | .lit _ | .kid _ => none
  | .hint i _ | .nl _ i _ => some (some i)
  | _ => q

/-- The position in the source, if the construct starts at `p`. -/
def posOf (p : Option Nat) (locs : List Loc) : Option (Option Nat) → Option Nat
  | none => none
  | some none => p
  | some (some g) => some (locAt locs g).r

theorem posOf_src (p : Option Nat) (locs : List Loc) (q : Option (Option Nat)) (e : El) :
    posOf p locs (e.src q) = e.pos locs (posOf p locs q) := by
  cases e <;> rfl

/-- The children of a sequence of arguments, with the level relative to the construct, the position and the number
of bodies of functions they are in. -/
def elKids : Nat → Option (Option Nat) → Nat → List El → List (Nat × Nat × Option (Option Nat) × Nat)
  | _, _, _, [] => []
  | l, q, f, .kid i :: es => (i, l, q, f) :: elKids l none f es
  | l, q, f, .inc :: es => elKids (l + 1) q f es
  | l + 1, q, f, .dec :: es => elKids l q f es
  | 0, _, _, .dec :: _ => []
  | l, _, f, .lit _ :: es => elKids l none f es
  | l, _, f, .hint i _ :: es | l, _, f, .nl _ i _ :: es => elKids l (some (some i)) f es
  | l, q, f, .incF :: es => elKids l q (f + 1) es
  | l, q, f + 1, .decF :: es => elKids l q f es
  | _, _, 0, .decF :: _ => []

/-- The change of the number of open bodies by an argument. -/
def El.fv (f : Nat) : El → Nat
  | .incF => f + 1
  | .decF => f - 1
  | _ => f

/-- The children of a template, with the level relative to the construct, the position, the number of bodies of
functions they are in and whether `test_indent` may indent them. -/
def kidLevels : Nat → Option (Option Nat) → Nat → List Fm → List (Nat × Nat × Option (Option Nat) × Nat × Bool)
  | _, _, _, [] => []
  | 0, _, _, .el .dec :: _ => []
  | _, _, 0, .el .decF :: _ => []
  | l, q, f, .el e :: es =>
    (elKids l q f [e]).map (fun x => (x.1, x.2.1, x.2.2.1, x.2.2.2, false)) ++ kidLevels (e.lv l) (e.src q) (e.fv f) es
  | l, q, f, .ind j _ _ body :: es =>
    ((elKids l q f body).filter (fun x => x.1 == j)).map (fun x => (x.1, x.2.1, x.2.2.1, x.2.2.2, true)) ++
      kidLevels l none f es

theorem elKids_hold {c : Config} {ms : List (Nat × Mk)} {z : List NOpt} {locs : List Loc} {ns : List Node} (k f0 : Int)
    {o : Option Str} {p : Option Nat} :
    ∀ {es : List El} {x : Ctx} {q : Option (Option Nat)} {ls : List Int} {l f : Nat},
    ElsHold c ms z locs ns x (posOf p locs q) ls es → Deep k o l x → DeepF f0 f x →
    ∀ (i : Nat) (a : Nat) (q' : Option (Option Nat)) (f' : Nat), (i, a, q', f') ∈ elKids l q f es → ∀ n, ns[i]? = some n →
      (z = [] → n.tag.isRoot = false → posOf p locs q' = some n.span.l) → 0 ≤ k + a → 0 ≤ f0 + f' →
      Landmarks c (InMarks ms) (QM c ms) (k + a).toNat (if a = 0 then o else none) (decide (0 < f0 + f')) z n := by
  intro es
  induction es with
  | nil => intro x q ls l f _ _ _ i a q' f' h; cases h
  | cons e es ih =>
    intro x q ls l f hH hx hy i a q' f' hm n hn hp h0 h1
    have hr := hH.2
    rw [← posOf_src] at hr
    cases e with
    | kid i' =>
      simp only [elKids, List.mem_cons, Prod.mk.injEq] at hm
      rcases hm with ⟨rfl, rfl, rfl, rfl⟩ | hm
      · obtain ⟨n', hn', this, _⟩ := hH.1
        rw [hn] at hn'
        cases hn'
        unfold LandmarksIn ctxIn at this
        rw [hx.1, hx.op, show x.2.2 = _ from hy] at this
        exact this hp h0 h1
      · exact ih hr hx hy i a q' f' hm n hn hp h0 h1
    | inc => exact ih hr hx.inc hy i a q' f' hm n hn hp h0 h1
    | dec =>
      cases l with
      | zero => cases hm
      | succ l => exact ih hr hx.dec hy i a q' f' hm n hn hp h0 h1
    | lit => exact ih hr hx hy i a q' f' hm n hn hp h0 h1
    | hint => exact ih hr hx hy i a q' f' hm n hn hp h0 h1
    | nl => exact ih hr hx hy i a q' f' hm n hn hp h0 h1
    | incF => exact ih hr hx hy.inc i a q' f' hm n hn hp h0 h1
    | decF =>
      cases f with
      | zero => simp [elKids] at hm
      | succ f => exact ih hr hx hy.dec i a q' f' (by simpa [elKids, El.src] using hm) n hn hp h0 h1

theorem kidLevels_hold {c : Config} {ms : List (Nat × Mk)} {z : List NOpt} {locs : List Loc} {ns : List Node} (k f0 : Int)
    {o : Option Str} {p : Option Nat} :
    ∀ {fms : List Fm} {x : Ctx} {q : Option (Option Nat)} {ls : List Int} {l f : Nat},
    FmsHold c ms z locs ns x (posOf p locs q) ls fms → Deep k o l x → DeepF f0 f x →
    ∀ (i : Nat) (a : Nat) (q' : Option (Option Nat)) (f' : Nat) (b : Bool), (i, a, q', f', b) ∈ kidLevels l q f fms →
      ∀ n, ns[i]? = some n → (z = [] → n.tag.isRoot = false → posOf p locs q' = some n.span.l) → 0 ≤ k + a → 0 ≤ f0 + f' →
      (b = true → ¬ HasIndent c n) ∧
          Landmarks c (InMarks ms) (QM c ms) (k + a).toNat (if a = 0 then o else none) (decide (0 < f0 + f')) z n ∨
        b = true ∧ MayIndent c n.tag ∧
          Landmarks c (InMarks ms) (QM c ms) (k + a + 1).toNat none (decide (0 < f0 + f')) z n := by
  intro fms
  induction fms with
  | nil => intro x q ls l f _ _ _ i a q' f' b h; simp [kidLevels] at h
  | cons m fms ih =>
    intro x q ls l f hH hx hy i a q' f' b hm n hn hp h0 h1
    cases m with
    | el e =>
      have hl : ¬ (l = 0 ∧ e = .dec) := by
        rintro ⟨rfl, rfl⟩
        simp [kidLevels] at hm
      have hl' : ¬ (f = 0 ∧ e = .decF) := by
        rintro ⟨rfl, rfl⟩
        simp [kidLevels] at hm
      have hx' : Deep k o (e.lv l) (e.eff x) := by
        cases e with
        | inc => exact hx.inc
        | dec =>
          cases l with
          | zero => exact absurd ⟨rfl, rfl⟩ hl
          | succ l => exact hx.dec
        | lit => exact hx
        | kid => exact hx
        | hint => exact hx
        | nl => exact hx
        | incF => exact hx
        | decF => exact hx
      have hy' : DeepF f0 (e.fv f) (e.eff x) := by
        cases e with
        | inc => exact hy
        | dec => exact hy
        | lit => exact hy
        | kid => exact hy
        | hint => exact hy
        | nl => exact hy
        | incF => exact hy.inc
        | decF =>
          cases f with
          | zero => exact absurd ⟨rfl, rfl⟩ hl'
          | succ f => exact hy.dec
      have hk : kidLevels l q f (.el e :: fms) =
          (elKids l q f [e]).map (fun x => (x.1, x.2.1, x.2.2.1, x.2.2.2, false)) ++
            kidLevels (e.lv l) (e.src q) (e.fv f) fms := by
        cases e <;> cases l <;> cases f <;>
          first | rfl | exact absurd ⟨rfl, rfl⟩ hl | exact absurd ⟨rfl, rfl⟩ hl' | simp [kidLevels]
      simp only [hk, List.mem_append, List.mem_map, Prod.mk.injEq] at hm
      rcases hm with ⟨⟨i', a', q'', f''⟩, hm, rfl, rfl, rfl, rfl, rfl⟩ | hm
      · exact .inl ⟨(nomatch ·), elKids_hold (locs := locs) k f0 (es := [e]) (p := p) (ls := ls) ⟨hH.1, trivial⟩ hx hy _ _ _ _ hm n
          hn hp h0 h1⟩
      · have hr := hH.2
        rw [← posOf_src] at hr
        exact ih hr hx' hy' i a q' f' b hm n hn hp h0 h1
    | ind j g y body =>
      simp only [kidLevels, List.mem_append, List.mem_map, List.mem_filter, Prod.mk.injEq, beq_iff_eq] at hm
      rcases hm with ⟨⟨i', a', q'', f''⟩, ⟨hm, hj'⟩, rfl, rfl, rfl, rfl, rfl⟩ | hm
      · rcases hH.1 with ⟨m, hj, hmay, hE⟩ | ⟨hno, hE⟩
        · simp only at hj' hn
          subst hj'
          rw [hj] at hn
          cases hn
          refine .inr ⟨rfl, hmay, ?_⟩
          have := elKids_hold (k + 1) f0 hE (l := l) hx.up hy _ _ _ _ hm n hj hp (by simp only at h0 ⊢; omega) h1
          rwa [show k + 1 + (a' : Int) = k + a' + 1 by omega, ite_self] at this
        · exact .inl ⟨fun _ => hno n (by simp only at hj'; subst hj'; exact hn), elKids_hold k f0 hE hx hy _ _ _ _ hm n hn hp h0 h1⟩
      · exact ih (q := none) hH.2 hx hy i a q' f' b hm n hn hp h0 h1

/-! ### The templates of the code -/

/-- The children at the beginning of a line: the number of the gap before and the number of the child. -/
def kidGaps : Tag → List (Nat × Nat)
  | .doBEnd | .repeatBUntil => [(0, 0)]
  | .funcBodyB => [(1, 0)]
  | .funcPBodyB | .ifThenB | .ifThenBElse | .ifThenElseIf | .ifThenElseIfElse | .elseIfThenB | .whileDoB => [(2, 1)]
  | .ifThenElseB => [(3, 1)]
  | .ifThenBElseB | .ifThenElseIfElseB => [(2, 1), (4, 2)]
  | .ifThenBElseIf | .ifThenBElseIfElse => [(2, 1), (3, 2)]
  | .ifThenBElseIfElseB => [(2, 1), (3, 2), (5, 3)]
  | .forIntB => [(6, 3)]
  | .forIntStepB => [(8, 4)]
  | .forRangeB => [(4, 2)]
  | .statsRetStat => [(0, 1)]
  | _ => []

/-- The number of children. -/
def arity (t : Tag) : Nat :=
  match t with
  | .binaryOp _ => 2
  | .tableConstructor _ _ => 1
  | _ =>
    match t.template Config.default with
    | some fms => (kidLevels 0 (some none) 0 fms).length
    | none => 0

/-- The number of the gap before a child; `none` if the construct begins with it. -/
def kidGap (t : Tag) (i : Nat) : Option Nat :=
  match t with
  | .binaryOp _ => if i = 0 then none else some 1
  | .tableConstructor _ _ => some 0
  | _ =>
    match t.template Config.default with
    | some fms =>
      match (kidLevels 0 (some none) 0 fms).find? (fun x => x.1 == i) with
      | some (_, _, some q, _, _) => q
      | _ => none
    | none => some (itemPlace t i)

/-- All children are written, on the level of the specification. -/
def kidCheck (t : Tag) : Bool :=
  match t.template Config.default with
  | none => true
  | some fms => (List.range (arity t)).all fun i => (!t.isRoot || (kidGap t i).isSome) &&
    (kidLevels 0 (some none) 0 fms).any fun (j, a, q, f, b) =>
      j == i && f == (if nests t i then 1 else 0) && a == (if (bodies t).contains i then 1 else 0) && (!b || !(bodies t).contains i) &&
        (b || !(listKids t).contains i) && q == some (kidGap t i)

theorem kidCheck_all (t : Tag) : kidCheck t = true := by cases t <;> rfl

theorem kidLevels_cfg {t : Tag} {c : Config} {fms : List Fm} (h : t.template c = some fms) :
    ∃ fms', t.template Config.default = some fms' ∧ kidLevels 0 (some none) 0 fms = kidLevels 0 (some none) 0 fms' := by
  cases t <;> simp only [Tag.template, Option.some.injEq, reduceCtorEq] at h <;> subst h <;> exact ⟨_, rfl, rfl⟩

/-- All options that are numbers set to 1. -/
def onCfg : Config := ⟨none, { FormatOpts.default with nums := fun _ => some 1 }⟩

/-- The lines of the specification are begun. -/
def lineCheck (t : Tag) (places : List (Nat × Nat)) : Bool :=
  match t.template onCfg with
  | none => true
  | some fms => places.all fun (g, d) => (lineStarts 0 none fms).any fun (g', a, o) =>
    g' == g && a == d && (match o with | none => true | some i => (kidGaps t).contains (g, i))

theorem lineCheck_all (t : Tag) {o : NOpt} {places : List (Nat × Nat)} (h : lineBreaks t = some (o, places)) :
    lineCheck t places = true := by
  cases t <;> simp only [lineBreaks, Option.some.injEq, Prod.mk.injEq, reduceCtorEq] at h <;> obtain ⟨_, rfl⟩ := h <;> rfl

theorem template_on {t : Tag} {c : Config} {o : NOpt} {places : List (Nat × Nat)} (h : lineBreaks t = some (o, places))
    (hc : c.num o = some 1) : t.template c = t.template onCfg := by
  cases t <;> simp only [lineBreaks, Option.some.injEq, Prod.mk.injEq, reduceCtorEq] at h <;> obtain ⟨rfl, _⟩ := h <;>
    first | rfl | (simp only [Tag.template, hc]; rfl)

theorem statsRetStat_on {c : Config} (hc : c.num .newlineFormatStatement ≠ none) :
    Tag.statsRetStat.template c = Tag.statsRetStat.template onCfg := by
  cases h : c.num .newlineFormatStatement with
  | none => exact absurd h hc
  | some m => simp only [Tag.template, h]; rfl

/-! ### Nodes with the shape of the parser's nodes -/

/-- The last gap of a construct that may be put on one line. -/
def foldGap (t : Tag) : Option Nat :=
  match t with
  | .elseIfThenB => none
  | _ =>
    match lineBreaks t with
    | some (.newlineFormatIf, places) | some (.newlineFormatFunction, places)
    | some (.newlineFormatTableConstructor, places) => places.getLast?.map (·.1)
    | _ => none

/-- What a node needs: no more children than places for them, lists with a gap before every item, children at the
beginning of a line that start with a literal, and children at their positions. -/
structure ReadyAt (t : Tag) (span : Loc) (locs : List Loc) (kids : List Node) : Prop where
  few : t.seps = none → t.isPlainList = false → kids.length ≤ arity t
  noFields : (t.template Config.default).isSome = true → ∀ n ∈ kids, n.tag.isFields = false
  calm : ∀ (c : Config) g i n, (g, i) ∈ kidGaps t → kids[i]? = some n → CalmAt c (locAt locs g).r false n
  sep : ∀ ss, t.seps = some ss → 2 * kids.length ≤ locs.length ∧ kids.length ≤ ss.length
  plain : t.isPlainList = true → kids.length ≤ locs.length
  items : ∀ (c : Config) (j : Nat) n (loc : Loc), kids[j]? = some n → ItemBreaks c [] t (j == 0) n →
    locs[itemPlace t j]? = some loc → CalmAt c loc.r true n
  operand : ∀ (c : Config) op n (loc : Loc), t = .binaryOp op → kids[1]? = some n → BraceStays c n → locs[1]? = some loc →
    CalmAt c loc.r true n
  starts : ∀ (j : Nat) n, kids[j]? = some n → posOf (some span.l) locs (some (kidGap t j)) = some n.span.l
  ends : ∀ g, foldGap t = some g → locs.length = g + 1
  iv : ∀ b, t = .tableConstructor (some true) b → valuesOnly kids = true

theorem locAt_of {locs : List Loc} {g : Nat} {loc : Loc} (h : locs[g]? = some loc) : locAt locs g = loc := by
  simp [locAt, h]

/-- The specification for a node that is not put on one line. -/
def LandmarksWith (c : Config) (P : Nat → Nat → Prop) (Q : Node → Prop) (k : Nat) (o : Option Str) (u : Bool)
    (z : List NOpt) : Node → Prop
  | .mk tag span locs kids =>
    (∀ g d loc, Breaks.At c z tag kids g d → locs[g]? = some loc → P loc.r (k + d)) ∧
    (∀ i n loc, kids[i]? = some n → ItemBreaks c z tag (i == 0) n → locs[itemPlace tag i]? = some loc → P loc.r k) ∧
    (∀ g op loc, tag = .binaryOp op → OperatorBreaks c kids g → locs[g]? = some loc →
      P loc.r (k + operatorDepth o op)) ∧
    (BraceBreaks c z tag → P span.l k) ∧
    LandmarksAll c P Q k o u z tag 0 kids

theorem LandmarksWith.keep {c : Config} {P : Nat → Nat → Prop} {Q : Node → Prop} {k : Nat} {o : Option Str} {u : Bool}
    {z : List NOpt} {n : Node} (h : LandmarksWith c P Q k o u z n) : Landmarks c P Q k o u z n := by
  cases n
  exact ⟨z, .inl rfl, h⟩

theorem LandmarksWith.mono {c : Config} {P P' : Nat → Nat → Prop} {Q Q' : Node → Prop} (h : ∀ q k, P q k → P' q k)
    (hq : ∀ n, Q n → Q' n) {k : Nat} {o : Option Str} {u : Bool} {z : List NOpt} {n : Node} (hn : LandmarksWith c P Q k o u z n) :
    LandmarksWith c P' Q' k o u z n := by
  cases n
  exact ⟨fun g d loc hb hl => h _ _ (hn.1 g d loc hb hl), fun i n loc hi hb hl => h _ _ (hn.2.1 i n loc hi hb hl),
    fun g op loc ht hb hl => h _ _ (hn.2.2.1 g op loc ht hb hl), fun hb => h _ _ (hn.2.2.2.1 hb), hn.2.2.2.2.mono h hq⟩

/-- The same for a node written in the given context at the given position. -/
def PlainIn (c : Config) (ms : List (Nat × Mk)) (z : List NOpt) (x : Ctx) (p : Option Nat) (n : Node) : Prop :=
  (z = [] → n.tag.isRoot = false → p = some n.span.l) → 0 ≤ x.1 → 0 ≤ x.2.2 →
    LandmarksWith c (InMarks ms) (QM c ms) x.1.toNat (ctxOp x) (ctxIn x) z n

/-- A writer that renders items of a node and begins the lines that the specification asks for, not on one line. -/
def WP (env : Env) (c : Config) (w : Config → W) (is : List Item) (n : Node) : Prop :=
  ∀ z c' st st' (p : Option Nat) (ls : List Int), Variant c c' → KeepsBut z c c' → FreshTables c st → w c' st = .ok st' →
    (∀ l ∈ ls, AtLevel c l st.f) →
    st'.ctx = st.ctx ∧ ∃ ms, LEmits False env c p is ms st.f st'.f ∧
      PlainIn c ms z st.ctx p n ∧
      ∀ r, p = some r → ∀ o, CalmAt c r o n → ∀ l ∈ ls, (o = true → l = st.ctx.1) → (r, Mk.lvl l) ∈ ms

/-- The specification for one node, from the lines and the children. -/
theorem landmarks_mk {c : Config} {P : Nat → Nat → Prop} {Q : Node → Prop} {k : Nat} {o : Option Str} {u : Bool} {z : List NOpt}
    {t : Tag} {span : Loc} {locs : List Loc} {ns : List Node}
    (h1 : ∀ g d loc, Breaks.At c z t ns g d → locs[g]? = some loc → P loc.r (k + d))
    (hi : ∀ i n loc, ns[i]? = some n → ItemBreaks c z t (i == 0) n → locs[itemPlace t i]? = some loc → P loc.r k)
    (ho : ∀ g op loc, t = .binaryOp op → OperatorBreaks c ns g → locs[g]? = some loc → P loc.r (k + operatorDepth o op))
    (hb : BraceBreaks c z t → P span.l k)
    (h2 : ∀ j n, ns[j]? = some n → ∃ d o', Depth c o t j n d o' ∧ Landmarks c P Q (k + d) o' (u || nests t j) z n) :
    LandmarksWith c P Q k o u z (.mk t span locs ns) :=
  ⟨h1, hi, ho, hb, Spec.LandmarksAll.get fun j n h => by rw [Nat.zero_add]; exact h2 j n h⟩

/-- Fewer items begin a line if options are overruled. -/
theorem ItemBreaks_nil {c : Config} {z : List NOpt} {t : Tag} {b : Bool} {n : Node} (h : ItemBreaks c z t b n) :
    ItemBreaks c [] t b n := by
  unfold ItemBreaks at h ⊢
  split at h
  · exact h
  · exact ⟨h.1, h.2.1, by simp⟩
  · exact ⟨h.1, by simp, h.2.2⟩
  · exact h
  · exact h
  · exact h

/-- The position of a child is known, if that of the node is. -/
theorem ReadyAt.pos {t : Tag} {span : Loc} {locs : List Loc} {kids : List Node} (hR : ReadyAt t span locs kids)
    {z : List NOpt} {p : Option Nat} {j : Nat} {n : Node} (hroot : t.isRoot = false ∨ (kidGap t j).isSome = true)
    (hp : z = [] → t.isRoot = false → p = some span.l) (hn : kids[j]? = some n) :
    z = [] → n.tag.isRoot = false → posOf p locs (some (kidGap t j)) = some n.span.l := by
  intro hz _
  have := hR.starts j n hn
  cases hk : kidGap t j with
  | none =>
    rw [hk] at this hroot
    exact (hp hz (hroot.resolve_right (by simp))).trans this
  | some g =>
    rw [hk] at this
    exact this

/-- Only in lists an item begins a line. -/
theorem ItemBreaks_list {c : Config} {z : List NOpt} {t : Tag} {b : Bool} {n : Node} (h : ItemBreaks c z t b n) :
    t.seps.isSome = true ∨ t.isPlainList = true := by
  cases t <;> first | exact .inl rfl | exact .inr rfl | exact h.elim

theorem ItemBreaks_ne {c : Config} {z : List NOpt} {t : Tag} {b : Bool} {n : Node} (h : ItemBreaks c z t b n) : t.leafText = none ∧
    t.template Config.default = none := by
  cases t <;> first | exact ⟨rfl, rfl⟩ | exact h.elim

theorem depth_iff {c : Config} {o o' : Option Str} {t : Tag} {kid : Node} {i d : Nat} (h : ∀ op, t ≠ .binaryOp op) :
    Depth c o t i kid d o' ↔ (o' = if d = 0 then o else none) ∧
      if i ∈ bodies t then d = 1 ∨ d = 0 ∧ c.bool .forceSingleLineTable = some true ∧ ∃ a b, t = .tableConstructor a b
      else d = 0 ∧ (i ∈ listKids t → ¬ HasIndent c kid) ∨
        d = 1 ∧ (((∃ s, kid.tag = .expList s) ∧ c.bool .indentExpList = some true) ∨
        (kid.tag = .varSuffixList ∧ c.bool .indentVarSuffix = some true)) := by
  unfold Depth
  split
  · exact absurd rfl (h _)
  · rfl

theorem calmAt_table {c : Config} {r : Nat} {a b : Option Bool} {span : Loc} {locs : List Loc} {ns : List Node}
    {o : Bool}
    (h : CalmAt c r o (.mk (.tableConstructor a b) span locs ns)) : c.bool .writeNewlineAtMultilineTable ≠ some true ∨ o = true := by
  cases h with
  | leaf h => exact absurd rfl h
  | lit h => cases h
  | kid h => cases h
  | list h => cases h
  | table h => exact h

/-! ### Templates -/

theorem template_marks {env : Env} {c : Config} {t : Tag} {span : Loc} {locs : List Loc} {rs : List R}
    {ks : List (List Item)} (hK : KidsB env c rs ks) (hW : ∀ r ∈ rs, WLB c r) (hG : ∀ l ∈ locs, GapAt env l) (hR : ReadyAt t span locs (rs.map (·.node))) {z : List NOpt} {c' : Config}
    (hv : Variant c c') (hk : KeepsBut z c c') {fms : List Fm} (ht : t.template c' = some fms) {st st' : St}
    (p : Option Nat) (ls : List Int) (hls : ∀ l ∈ ls, AtLevel c l st.f) (hfr : FreshTables c st)
    (h : runAll (runFm env locs rs c') fms st = .ok st') :
    st'.ctx = st.ctx ∧ ∃ ms, LEmits False env c p ((fms.flatMap Fm.slots).flatMap (slotItems locs ks)) ms st.f st'.f ∧
      PlainIn c ms z st.ctx p (.mk t span locs (rs.map (·.node))) ∧
      ∀ r, p = some r → ∀ o, CalmAt c r o (.mk t span locs (rs.map (·.node))) → ∀ l ∈ ls, (o = true → l = st.ctx.1) →
        (r, Mk.lvl l) ∈ ms := by
  obtain ⟨a, ms, b, d⟩ := runFms_marks hv hk hK hW hG (template_ok ht).1 p ls hls hfr h
  rw [(template_ok ht).2] at a
  have hop : ∀ op, t ≠ .binaryOp op := by
    rintro op rfl
    cases ht
  refine ⟨a, ms, b, fun hp0 (h0 : 0 ≤ st.lvl) (hf0 : 0 ≤ st.fn) => landmarks_mk ?_ ?_ (fun g op loc h => absurd h (hop op))
    (fun ⟨_, ⟨_, _, e⟩, _⟩ => by rw [e] at ht; cases ht) ?_, ?_⟩
  · have key : ∀ g d loc, (∃ o, (g, d, o) ∈ lineStarts 0 none fms ∧ ∀ i, o = some i → (g, i) ∈ kidGaps t) →
        locs[g]? = some loc → InMarks ms loc.r (st.ctx.1.toNat + d) := by
      rintro g d' loc ⟨o, ho, hg⟩ hloc
      have := lineStarts_hold st.lvl d (Deep.zero st.ctx) (fun g d h => by cases h) g d' o ho
      rw [locAt_of hloc] at this
      have e : ((st.ctx.1.toNat + d' : Nat) : Int) = st.lvl + d' := by
        show ((st.lvl.toNat + d' : Nat) : Int) = st.lvl + d'
        omega
      unfold InMarks
      rw [e]
      cases o with
      | none => exact this.1 rfl
      | some i =>
        obtain ⟨n, hn, h⟩ := this.2 i rfl
        exact h (by rw [← locAt_of hloc]; exact hR.calm c g i n (hg i rfl) hn)
    have chk : ∀ {fms' : List Fm} {places : List (Nat × Nat)}, t.template onCfg = some fms' → lineCheck t places = true →
        ∀ g d, (g, d) ∈ places → ∃ o, (g, d, o) ∈ lineStarts 0 none fms' ∧ ∀ i, o = some i → (g, i) ∈ kidGaps t := by
      intro fms' places hf hc g d hg
      simp only [lineCheck, hf, List.all_eq_true] at hc
      have := hc (g, d) hg
      simp only [List.any_eq_true, Bool.and_eq_true, beq_iff_eq] at this
      obtain ⟨⟨g', a, o⟩, hm, ⟨rfl, rfl⟩, ho⟩ := this
      refine ⟨o, hm, ?_⟩
      rintro i rfl
      simpa using ho
    rintro g d' loc (⟨o, places, hb, hbr, hz, hg, _⟩ | ⟨rfl, hs, rfl, rfl⟩) hloc
    · have ho := (hk o hz).trans hbr
      rw [template_on hb ho] at ht
      exact key g d' loc (chk ht (lineCheck_all t hb) g d' hg) hloc
    · rw [← hv.numEq (by decide)] at hs
      rw [statsRetStat_on hs] at ht
      exact key 0 0 loc (chk (places := [(0, 0)]) ht rfl 0 0 (by simp)) hloc
  · intro i n loc _ hb
    obtain ⟨_, hf, _⟩ := kidLevels_cfg ht
    rw [(ItemBreaks_ne hb).2] at hf
    cases hf
  · intro j n hn
    obtain ⟨fms', hf, hkl⟩ := kidLevels_cfg ht
    have hnl : t.seps = none ∧ t.isPlainList = false := by
      cases t <;> first | exact ⟨rfl, rfl⟩ | cases hf
    have hj : j < arity t := by
      have := hR.few hnl.1 hnl.2
      have h2 : j < (rs.map (·.node)).length := (List.getElem?_eq_some_iff.1 hn).1
      omega
    have hc := kidCheck_all t
    simp only [kidCheck, hf, List.all_eq_true, List.mem_range, List.any_eq_true, Bool.and_eq_true, beq_iff_eq,
      Bool.or_eq_true] at hc
    obtain ⟨hroot, ⟨j', a', q', f', b'⟩, hm, ⟨⟨⟨⟨rfl, hfn⟩, ha⟩, hb⟩, hlk⟩, hq⟩ := hc j hj
    rw [← hkl] at hm
    simp only at hq
    subst hq
    have hL := kidLevels_hold (p := p) (q := some none) st.lvl st.fn d (Deep.zero st.ctx) (Int.add_zero _).symm _ _ _ _ _ hm n hn
      (hR.pos (by simpa using hroot) hp0 hn) (by omega) (by omega)
    simp only at ha hb hlk hfn
    have hin : decide (0 < st.fn + (f' : Int)) = (ctxIn st.ctx || nests t j') := by
      rw [hfn]
      unfold ctxIn
      cases nests t j' with
      | false => simp [St.ctx]; try rfl
      | true => simp; omega
    rw [hin] at hL
    have e : (st.lvl + (a' : Int)).toNat = st.ctx.1.toNat + a' := by
      show (st.lvl + (a' : Int)).toNat = st.lvl.toNat + a'
      omega
    have e1 : (st.lvl + (a' : Int) + 1).toNat = st.ctx.1.toNat + (a' + 1) := by
      show (st.lvl + (a' : Int) + 1).toNat = st.lvl.toNat + (a' + 1)
      omega
    rw [e, e1] at hL
    rcases hL with ⟨hno, hL⟩ | ⟨rfl, hmay, hL⟩
    · refine ⟨a', _, ?_, hL⟩
      rw [depth_iff hop]
      refine ⟨rfl, ?_⟩
      rw [ha]
      by_cases hi : j' ∈ bodies t
      · simp [hi]
      · simp only [List.contains_iff_mem, hi, if_false, true_and]
        refine .inl fun hk => hno ?_
        simpa [hk] using hlk
    · refine ⟨a' + 1, none, ?_, hL⟩
      have hi : j' ∉ bodies t := by simpa using hb
      have ha0 : a' = 0 := by rw [ha]; simp [hi]
      rw [depth_iff hop, if_neg hi, ha0]
      refine ⟨by simp, .inr ⟨rfl, ?_⟩⟩
      rcases hmay with h | h | h
      · exact .inl h
      · exact .inr h
      · have := hR.noFields (by rw [hf]; rfl) n (List.mem_of_getElem? hn)
        rw [this] at h; cases h
  · rintro r rfl o hc l hl hlo
    generalize hns : rs.map (·.node) = ns at hc d
    cases hc with
    | leaf h =>
      exact absurd (show t.leafText = none by cases t <;> first | rfl | cases ht) h
    | lit h =>
      obtain ⟨s, ms', h⟩ := startsLit_template h c'
      rw [ht] at h
      cases h
      exact d.1 r rfl l hl
    | kid h hc =>
      obtain ⟨ms', h⟩ := startsKid_template h c'
      rw [ht] at h
      cases h
      obtain ⟨n, hn, _, h2⟩ := d.1
      cases hn
      exact h2 r rfl o hc l hl hlo
    | list hcl =>
      rw [calmList_template hcl] at ht
      cases ht
    | op => cases ht
    | empty => cases ht
    | table => cases ht

/-! ### Operators and tables -/

theorem incIndent_op (op : Str) (st : St) :
    (incIndent (some op) st).ctx.1 = st.ctx.1 + operatorDepth (ctxOp st.ctx) op ∧
      ctxOp (incIndent (some op) st).ctx = some op := by
  refine ⟨?_, rfl⟩
  obtain ⟨f, lvl, stack, fn, cells⟩ := st
  cases stack with
  | nil => simp [incIndent, operatorDepth, ctxOp, St.ctx]
  | cons k s =>
    cases k with
    | none => simp [incIndent, operatorDepth, ctxOp, St.ctx]
    | some x => by_cases h : x = op <;> simp [incIndent, operatorDepth, ctxOp, St.ctx, h]

theorem calmAt_op {r : Nat} {o : Bool} {op : Str} {span : Loc} {locs : List Loc} {ns : List Node}
    (h : CalmAt c r o (.mk (.binaryOp op) span locs ns)) : ∃ n, ns[0]? = some n ∧ CalmAt c r false n := by
  cases h with
  | leaf h => exact absurd rfl h
  | lit h => cases h
  | kid h => cases h
  | list h => cases h
  | op hc => exact ⟨_, rfl, hc⟩

theorem binaryW_marks {env : Env} {z : List NOpt} {c c' : Config} (hv : Variant c c') (hk : KeepsBut z c c') {locs : List Loc} {span : Loc}
    {rs : List R} {ks : List (List Item)} (hK : KidsB env c rs ks) {op : Str}
    (hR : ReadyAt (.binaryOp op) span locs (rs.map (·.node))) {st st' : St} (hfr : FreshTables c st)
    (h : binaryW env op locs rs c' st = .ok st') (p : Option Nat) (ls : List Int) (hls : ∀ l ∈ ls, AtLevel c l st.f) :
    st'.ctx = st.ctx ∧ ∃ ms, LEmits False env c p
      (([.kid 0, .gap 0 [' '], .lit op, .gap 1 [' '], .kid 1] : List Slot).flatMap (slotItems locs ks)) ms st.f st'.f ∧
      PlainIn c ms z st.ctx p (.mk (.binaryOp op) span locs (rs.map (·.node))) ∧
      ∀ r, p = some r → ∀ o, CalmAt c r o (.mk (.binaryOp op) span locs (rs.map (·.node))) → ∀ l ∈ ls, (o = true → l = st.ctx.1) →
        (r, Mk.lvl l) ∈ ms := by
  simp only [binaryW, Res.bind_eq_ok] at h
  obtain ⟨st1, h1, h⟩ := h
  unfold kidW at h1
  cases hr0 : rs[0]? with
  | none => rw [hr0] at h1; cases h1
  | some r =>
    rw [hr0] at h1
    obtain ⟨e1, ms1, g1, b1, d1⟩ := hK.get hr0 z _ (incIndent (some op) st) _ p ls hv hk (hfr.same fun _ => rfl) h1 hls
    have hfr1 : FreshTables c st1 := hfr.same fun hf =>
      SameTables.trans (b := incIndent (some op) st) rfl ((hK.tables _ (List.mem_of_getElem? hr0)).w _ _ _ (hv.force hf) h1)
    have hex : ∃ st2 one, Same st1 st2 ∧ FreshTables c st2 ∧ (c'.bool .forceSingleLineBinaryOp ≠ some true → one = false) ∧ runAll (runEl env locs rs c')
        [.nl (decide (c'.num .newlineFormatBinaryOp = some 1) && !one) 0 [' '], .lit op,
         .nl (decide (c'.num .newlineFormatBinaryOp = some 2) && !one) 1 [' '], .kid 1, .dec] st2 = .ok st' := by
      split at h
      · next hc =>
        simp only [Res.bind_eq_ok, Res.pure_eq] at h
        obtain ⟨⟨a, b⟩, ha, x, hx, hb⟩ := h
        cases hx
        exact ⟨_, _, (testOneline_ok ha).1, hfr1.same fun hf => testOneline_tables
          (fun _ _ h => runAll_tables (fun _ _ _ => runEl_tables (hv.force hf) hK.tables) h) ha, fun h => absurd hc.2 h, hb⟩
      · exact ⟨st1, false, .refl _, hfr1, fun _ => rfl, h⟩
    obtain ⟨st2, one, hs, hst, hone, h3⟩ := hex
    obtain ⟨e3, ms2, g3, d3⟩ := runEls_marks hv hk hK (by
      simp only [List.forall_mem_cons, El.ok, true_and, List.not_mem_nil, false_implies, implies_true, and_true,
        Bool.and_eq_true, decide_eq_true_eq]
      exact ⟨fun h => nlOpt_of_eq h.1, fun h => nlOpt_of_eq h.1⟩) none [] (fun _ h => by cases h) hst h3
    rw [hs.1] at g3
    have hctx : st2.ctx = (incIndent (some op) st).ctx := hs.2.trans e1
    obtain ⟨hl, ho⟩ := incIndent_op op st
    refine ⟨?_, ms1 ++ ms2, ?_, fun hp0 h0 hf0 => landmarks_mk ?_ (fun i n loc _ hb => hb.elim) ?_
      (fun ⟨_, ⟨_, _, e⟩, _⟩ => by cases e) ?_, ?_⟩
    · rw [e3]
      simp only [List.foldl_cons, List.foldl_nil, hctx]
      exact dec_inc op st
    · have g1' : LEmits False env c p (ks[0]?.getD []) ms1 st.f st1.f := g1
      have := g1'.append g3 (slots_head hK.heads _)
      simpa [slotItems, El.slots] using this
    · rintro g d loc (⟨o, places, hb, _⟩ | ⟨h, _⟩) _
      · cases hb
      · cases h
    · rintro g op' loc ht ⟨hb, hg⟩ hloc
      cases ht
      rw [← hv.boolEq (by decide)] at hb
      have h1 := hone hb
      subst h1
      rw [hctx] at d3
      unfold InMarks
      rw [show ((st.ctx.1.toNat + operatorDepth (ctxOp st.ctx) op : Nat) : Int) = (incIndent (some op) st).ctx.1 by omega]
      rw [← locAt_of hloc]
      rcases hg with ⟨rfl, hn⟩ | ⟨rfl, hn, hk1⟩
      · rw [← hv.numEq (by decide)] at hn
        exact List.mem_append_right _ (d3.2.1 _ rfl _ (by simp [El.levels, hn]))
      · rw [← hv.numEq (by decide)] at hn
        obtain ⟨n, hn1, _, hc⟩ := d3.2.2.2.1
        refine List.mem_append_right _ (hc _ rfl true ?_ _ (by simp [El.levels, El.eff, hn]) fun _ => rfl)
        rw [locAt_of hloc]
        exact hR.operand c op n loc rfl hn1 (hk1 n hn1) hloc
    · obtain ⟨d, hd⟩ : ∃ d, operatorDepth (ctxOp st.ctx) op = d := ⟨_, rfl⟩
      rw [hd] at hl
      have b1' := b1
      unfold LandmarksIn at b1'
      rw [hl, ho] at b1'
      have e : (st.ctx.1 + (d : Int)).toNat = st.ctx.1.toNat + d := by omega
      rw [e] at b1'
      have hE := elKids_hold (st.ctx.1 + d) st.ctx.2.2 (l := 0) (f := 0) (o := some op) (p := none) (q := none) d3 (by
        rw [hctx, ← hl, ← ho]
        exact Deep.zero _) (by rw [hctx]; exact (Int.add_zero _).symm) 1 0 (some (some 1)) 0 (by simp [elKids])
      intro j n hn
      refine ⟨d, some op, ⟨hd.symm, rfl⟩, ?_⟩
      have hj : j < 2 := by
        have := hR.few rfl rfl
        have h2 : j < (rs.map (·.node)).length := (List.getElem?_eq_some_iff.1 hn).1
        simp only [arity] at this
        omega
      rcases j with _ | _ | j
      · rw [List.getElem?_map, hr0] at hn
        cases hn
        rw [show (ctxIn st.ctx || nests (.binaryOp op) 0) = ctxIn st.ctx by simp [nests]]
        exact (b1' (hR.pos (j := 0) (.inl rfl) hp0 (by rw [List.getElem?_map, hr0]; rfl)) (by omega) hf0).mono
          (inMarks_sub fun x hx => by simp [hx]) (QM.mono fun x hx => by simp [hx])
      · have := hE n hn (hR.pos (p := p) (j := 1) (.inl rfl) hp0 hn) (by omega) (by simpa using hf0)
        rw [show (ctxIn st.ctx || nests (.binaryOp op) 1) = decide (0 < st.ctx.2.2 + ((0 : Nat) : Int)) by simp [nests, ctxIn]]
        rw [show (st.ctx.1 + (d : Int) + ((0 : Nat) : Int)).toNat = st.ctx.1.toNat + d by omega] at this
        exact this.mono (inMarks_sub fun x hx => by simp [hx]) (QM.mono fun x hx => by simp [hx])
      · omega
    · intro r' hr' o hc l hl' _
      obtain ⟨n, hn, hc⟩ := calmAt_op hc
      rw [List.getElem?_map, hr0] at hn
      cases hn
      exact List.mem_append_left _ (d1 r' hr' false hc l hl' fun h => by cases h)

theorem tableW_marks {env : Env} (hr0 : env.posRange = none) {z : List NOpt} {c c' : Config} (hv : Variant c c') (hk : KeepsBut z c c') {locs : List Loc} {rs : List R}
    {ks : List (List Item)} (hK : KidsB env c rs ks) {iv single : Option Bool} {span : Loc}
    (hR : ReadyAt (.tableConstructor iv single) span locs (rs.map (·.node))) {st st' : St} (hfr : FreshTables c st)
    (h : tableW env iv single span locs rs c' st = .ok st') (p : Option Nat) (lo : List Int)
    (hlo : ∀ l ∈ lo, AtLevel c l st.f) :
    st'.ctx = st.ctx ∧ ∃ ms, LEmits False env c p
      (([.extra (tableHint c), .lit ['{'], .gap 0 (tableHint c), .kid 0, .gap 1 (tableHint c), .lit ['}']] :
        List Slot).flatMap (slotItems locs ks)) ms st.f st'.f ∧
      PlainIn c ms z st.ctx p (.mk (.tableConstructor iv single) span locs (rs.map (·.node))) ∧
      (∀ r, p = some r → ∀ l ∈ lo, c.bool .writeNewlineAtMultilineTable ≠ some true ∨ l = st.ctx.1 → (r, Mk.lvl l) ∈ ms) := by
  have hh : (c'.str .hintTableConstructor).getD [] = tableHint c := by rw [← hv.tableHint]; rfl
  simp only [tableW, Res.bind_eq_ok, hh] at h
  obtain ⟨st1, h1, h⟩ := h
  obtain ⟨e1, g1⟩ := nlW_ok hv h1 (fun hb => id (hv.nlOpt (.inr (.inr (.inl (by
    simp only [Bool.and_eq_true, decide_eq_true_eq] at hb; exact hb.1))))))
  -- the levels at the opening brace
  have hfr1 : FreshTables c st1 := hfr.same fun _ => nlW_tables h1
  obtain ⟨lo', hlo', hopen, hbrace⟩ : ∃ lo' : List Int, (∀ l ∈ lo'.map Mk.lvl, l.Holds c st1.f (st1.f ++ ['{'])) ∧
      (∀ l ∈ lo, c.bool .writeNewlineAtMultilineTable ≠ some true ∨ l = st.ctx.1 → l ∈ lo') ∧
      (c.bool .writeNewlineAtMultilineTable = some true → c.bool .forceSingleLineTable ≠ some true → st.lvl ∈ lo') := by
    generalize hg : (decide (c'.bool .writeNewlineAtMultilineTable = some true) && !st.cells.oneline span.l) = bnl at h1
    cases bnl with
    | true =>
      have hb : c.bool .writeNewlineAtMultilineTable = some true := by
        simp only [Bool.and_eq_true, decide_eq_true_eq] at hg
        rcases hv.boolOff .writeNewlineAtMultilineTable (by unfold SwitchedB; decide) with e | e
        · rw [← e]; exact hg.1
        · rw [e.1] at hg; simp at hg
      refine ⟨[st.ctx.1], fun l hl => ?_, fun l _ h => ?_, fun _ _ => by simp [St.ctx]⟩
      · cases List.mem_singleton.1 hl
        exact .inl (nlW_atLevel hv h1)
      · rcases h with h | h
        · exact absurd hb h
        · simp [h]
    | false =>
      refine ⟨lo, fun l hl => ?_, fun _ h _ => h, fun hw hf => ?_⟩
      rotate_left
      · exfalso
        rw [hfr hf] at hg
        rcases hv.boolOff .writeNewlineAtMultilineTable (by unfold SwitchedB; decide) with e | e
        · rw [e, hw] at hg; simp at hg
        · exact hf e.2
      obtain ⟨l', hl', rfl⟩ := List.mem_map.1 hl
      simp only [nlW, Res.bind_eq_ok, Res.pure_eq] at h1
      obtain ⟨f, hf, h1⟩ := h1
      cases h1
      simp only [ifNewLine, Bool.false_eq_true, if_false] at hf
      rcases commentHint_empty hr0 hf with e | e
      · exact .inl (by rw [e]; exact hlo l' hl')
      · exact .inr ⟨st.f, hlo l' hl', e, rfl⟩
  cases hK with
  | nil => simp at h
  | @cons r is rs ks hr hK hT =>
    simp only [List.getElem?_cons_zero] at h
    have hex : ∃ st2 ind, Same { st1.put ['{'] with fn := st1.fn + 1 } st2 ∧ FreshTables c st2 ∧
        (ind = false → c.bool .forceSingleLineTable = some true ∧ iv = some true) ∧ ∃ st3,
        hintW env c' (locAt locs 0) (tableHint c)
          (if ind = true then
            incIndent none
              (match r.node.tag with
              | Tag.fields _ _ _ =>
                { st2 with cells := { st2.cells with indent := upd st2.cells.indent r.node.span.l ind } }
              | _ => st2)
          else
            match r.node.tag with
            | Tag.fields _ _ _ =>
              { st2 with cells := { st2.cells with indent := upd st2.cells.indent r.node.span.l ind } }
            | _ => st2) = .ok st3 ∧ ∃ st4, r.w c' st3 = .ok st4 ∧ ∃ st5,
        nlW env c'
          ((decide (c'.num NOpt.newlineFormatTableConstructor = some 1) ||
              match c'.num NOpt.maxWidth with
              | some m => decide (m ≤ lenAfterNewline st4.f)
              | none => false) && ind)
          (locAt locs 1) (tableHint c)
          { (if ind = true then decIndent st4 else st4) with
            fn := (if ind = true then decIndent st4 else st4).fn - 1 } = .ok st5 ∧
        .ok (st5.put ['}']) = Res.ok st' := by
      split at h
      · next hc =>
        simp only [Res.bind_eq_ok, Res.pure_eq] at h
        obtain ⟨⟨a, b⟩, ha, st3, h3, st4, h4, st5, h5, h6⟩ := h
        rw [hv.boolEq (by decide)] at hc
        exact ⟨a, b, testIndent_same ha, fun hf => absurd hc.1 hf, fun _ => ⟨hc.1, hc.2.1⟩, st3, h3, st4, h4, st5, h5, h6⟩
      · simp only [Res.bind_eq_ok, Res.pure_eq] at h
        obtain ⟨⟨a, b⟩, ha, st3, h3, st4, h4, st5, h5, h6⟩ := h
        cases ha
        exact ⟨_, _, .refl _, hfr1.same fun _ => rfl, fun h => (by cases h), st3, h3, st4, h4, st5, h5, h6⟩
    obtain ⟨st2, ind, hs2, hfr2, hind, st3, h3, st4, h4, st5, h5, h6⟩ := hex
    generalize hst : (match r.node.tag with
      | .fields _ _ _ => { st2 with cells := { st2.cells with indent := upd st2.cells.indent r.node.span.l ind } }
      | _ => st2) = st2' at h3
    have hs2' : Same st2 st2' := by
      rw [← hst]; split <;> exact ⟨rfl, rfl⟩
    obtain ⟨e3, g3⟩ := hintW_ok hv h3
    have hfr3 : FreshTables c st3 := hfr2.same fun _ => SameTables.trans (b := if ind = true then incIndent none st2' else st2')
      (by rw [← hst]; cases ind <;> (unfold SameTables; simp only [Bool.false_eq_true, if_true, if_false]; split <;> rfl)) (hintW_tables h3)
    obtain ⟨e4, ms, g4, b4, _⟩ := hr z _ _ _ (some (locAt locs 0).r) [] hv hk hfr3 h4 (fun _ h => by cases h)
    obtain ⟨e5, g5⟩ := nlW_ok hv h5 (fun hb => id (hv.nlOpt (by
      simp only [Bool.and_eq_true, Bool.or_eq_true, decide_eq_true_eq] at hb
      rcases hb.1 with hb | hb
      · exact nlOpt_of_eq hb
      · cases hm : c'.num .maxWidth with
        | none => rw [hm] at hb; cases hb
        | some m => exact nlOpt_of_eq hm)))
    cases h6
    have hs := hs2.trans hs2'
    have hctx : st2'.ctx = (st.ctx.1, st.ctx.2.1, st.ctx.2.2 + 1) := by
      rw [hs.2]
      have : ({ st1.put ['{'] with fn := st1.fn + 1 } : St).ctx = (st1.ctx.1, st1.ctx.2.1, st1.ctx.2.2 + 1) := rfl
      rw [this, e1]
    have hf : st2'.f = st1.f ++ ['{'] := hs.1
    have hl2 : st2'.lvl = st.lvl := congrArg Prod.fst hctx
    have hl3 : st3.lvl = st.lvl + (if ind = true then 1 else 0) := by
      have := congrArg Prod.fst e3
      change st3.lvl = _ at this
      rw [this]
      cases ind with
      | false => simpa [St.ctx] using hl2
      | true => simp [incIndent, St.ctx, hl2]
    have hf3' : st3.ctx.2.2 = st.ctx.2.2 + 1 := by
      rw [e3]
      have := congrArg (·.2.2) hctx
      cases ind <;> exact this
    have hctx4 : (if ind = true then decIndent st4 else st4).ctx = (st.ctx.1, st.ctx.2.1, st.ctx.2.2 + 1) := by
      cases ind with
      | false =>
        simp only [Bool.false_eq_true, if_false] at e3 ⊢
        rw [e4, e3, hctx]
      | true =>
        simp only [if_true] at e3 ⊢
        have : st4.ctx = (st.ctx.1 + 1, none :: st.ctx.2.1, st.ctx.2.2 + 1) := by
          rw [e4, e3]
          simp only [St.ctx, Prod.mk.injEq] at hctx
          simp [St.ctx, incIndent, hctx.1, hctx.2.1, hctx.2.2]
        simp only [St.ctx, Prod.mk.injEq] at this
        simp only [St.ctx, decIndent, this.1, this.2.1, this.2.2]
        simp [Int.add_sub_cancel]
    have hf4 : (if ind = true then decIndent st4 else st4).f = st4.f := by cases ind <;> rfl
    have hf3 : (if ind = true then incIndent none st2' else st2').f = st1.f ++ ['{'] := by cases ind <;> exact hf
    -- the levels at the closing brace
    obtain ⟨ls, hls, hbr⟩ : ∃ ls : List Int, (∀ l ∈ ls, AtLevel c l st5.f) ∧
        ((c.num .newlineFormatTableConstructor = some 1 ∧ NOpt.newlineFormatTableConstructor ∉ z ∧
          (c.bool .forceSingleLineTable = some true → valuesOnly ((r :: rs).map (·.node)) = false)) → st.lvl ∈ ls) := by
      by_cases hb : c.num .newlineFormatTableConstructor = some 1 ∧ NOpt.newlineFormatTableConstructor ∉ z ∧
          (c.bool .forceSingleLineTable = some true → valuesOnly ((r :: rs).map (·.node)) = false)
      · refine ⟨[st.lvl], fun l hl => ?_, fun _ => by simp⟩
        cases List.mem_singleton.1 hl
        have hi : ind = true := by
          cases ind with
          | true => rfl
          | false =>
            have h1 := hind rfl
            rw [h1.2] at hR
            have := hb.2.2 h1.1
            rw [hR.iv _ rfl] at this
            cases this
        have ho := (hk _ hb.2.1).trans hb.1
        subst hi
        simp only [ho, decide_true, Bool.true_or, Bool.and_self, if_true] at h5
        have := nlW_atLevel hv h5
        have hl4 : (decIndent st4).lvl = st.lvl := congrArg Prod.fst hctx4
        rwa [show ({ decIndent st4 with fn := (decIndent st4).fn - 1 } : St).lvl = st.lvl from hl4] at this
      · exact ⟨[], fun _ h => (by cases h), fun h => absurd h hb⟩
    have ho3 : ctxOp st3.ctx = if ind = true then none else ctxOp st.ctx := by
      rw [e3]
      cases ind with
      | false =>
        simp only [Bool.false_eq_true, if_false]
        rw [hctx]; rfl
      | true => simp [ctxOp, incIndent, St.ctx]
    refine ⟨?_, marksAt p (lo'.map .lvl) ++ (ms ++ (marksAt (some (locAt locs 1).r) (ls.map .lvl) ++ [])), ?_, fun hp0 (h0 : 0 ≤ st.lvl) (hf0 : 0 ≤ st.fn) =>
      landmarks_mk ?_ (fun i n loc _ hb => hb.elim) (fun g op loc h => (by cases h)) ?_ ?_, fun r' hr' l hl hb =>
        List.mem_append_left _ (lvl_mem hr' (hopen l hl hb))⟩
    · have : (st5.put ['}']).ctx = st5.ctx := rfl
      rw [this, e5]
      simp only [St.ctx, Prod.mk.injEq] at hctx4 ⊢
      exact ⟨hctx4.1, hctx4.2.1, by rw [hctx4.2.2]; simp [Int.add_sub_cancel]⟩
    · simp only [List.flatMap_cons, slotItems, List.flatMap_nil, List.append_nil, List.cons_append, List.nil_append,
        List.getElem?_cons_zero, Option.getD_some]
      refine .extra g1 (.lit _ hlo' ?_)
      rw [hf3] at g3
      refine .gap g3.stepAt (.inr (NoEnd.append (js := .gap (locAt locs 1) (tableHint c) :: _) hK trivial).quiet) (g4.append ?_ trivial)
      have g5' : PlainStep env c (locAt locs 1) (tableHint c) st4.f st5.f := by
        have : ({ (if ind = true then decIndent st4 else st4) with
            fn := (if ind = true then decIndent st4 else st4).fn - 1 } : St).f = st4.f := hf4
        rw [← this]; exact g5
      have := LEmits.lit (W := False) (env := env) (c := c) (p := some (locAt locs 1).r) (src := ['}']) (out := ['}']) _ (lvl_holds hls _) .nil
      rw [List.append_nil] at this
      exact .gap g5'.stepAt (.inr (NoEnd.quiet trivial)) this
    · rintro g d loc (⟨o, places, hb, hbr', hz, hg, hvo⟩ | ⟨h, _⟩) hloc
      · simp only [lineBreaks, Option.some.injEq, Prod.mk.injEq] at hb
        obtain ⟨rfl, rfl⟩ := hb
        cases List.mem_singleton.1 hg
        rw [← locAt_of hloc]
        unfold InMarks
        have e : ((st.ctx.1.toNat + 0 : Nat) : Int) = st.lvl := by
          show ((st.lvl.toNat + 0 : Nat) : Int) = st.lvl
          omega
        rw [e]
        exact List.mem_append_right _ (List.mem_append_right _ (List.mem_append_left _ (lvl_mem rfl (hbr ⟨hbr', hz, hvo rfl⟩))))
      · cases h
    · rintro ⟨rfl, _, hw, hf⟩
      unfold InMarks
      rw [show ((st.ctx.1.toNat : Nat) : Int) = st.lvl from (by show ((st.lvl.toNat : Nat) : Int) = st.lvl; omega)]
      exact List.mem_append_left _ (lvl_mem (hp0 rfl rfl) (hbrace hw hf))
    · intro j n hn
      have hj : j < 1 := by
        have := hR.few rfl rfl
        have h2 : j < ((r :: rs).map (·.node)).length := (List.getElem?_eq_some_iff.1 hn).1
        simp only [arity] at this
        omega
      obtain rfl : j = 0 := by omega
      cases hn
      unfold LandmarksIn at b4
      rw [show st3.ctx.1 = _ from hl3, ho3] at b4
      refine ⟨if ind = true then 1 else 0, if ind = true then none else ctxOp st.ctx, ?_, ?_⟩
      · rw [depth_iff (fun op h => by cases h), if_pos (show 0 ∈ bodies (.tableConstructor iv single) by simp [bodies])]
        cases ind with
        | true => exact ⟨by simp, .inl rfl⟩
        | false => exact ⟨by simp, .inr ⟨rfl, (hind rfl).1, _, _, rfl⟩⟩
      · have e : (st.lvl + (if ind = true then 1 else 0)).toNat = st.lvl.toNat + (if ind = true then 1 else 0) := by
          split <;> omega
        show Landmarks _ _ _ (st.lvl.toNat + _) _ _ _ _
        rw [← e, show (ctxIn st.ctx || nests (.tableConstructor iv single) 0) = ctxIn st3.ctx by
          simp only [ctxIn, hf3', nests, beq_self_eq_true, Bool.or_true, true_eq_decide_iff]
          exact Int.lt_add_one_of_le hf0]
        exact (b4 (hR.pos (p := p) (j := 0) (.inl rfl) hp0 rfl) (by split <;> omega) (by
          rw [hf3']; exact Int.le_trans hf0 (Int.le_of_lt (Int.lt_add_one_of_le (Int.le_refl _))))).mono
          (inMarks_sub fun x hx => by simp [hx]) (QM.mono fun x hx => by simp [hx])

theorem tableEmptyW_marks {env : Env} {z : List NOpt} {c c' : Config} (hv : Variant c c') {locs : List Loc} {span : Loc} {rs : List R}
    {ks : List (List Item)} (hR : ReadyAt .tableConstructorEmpty span locs (rs.map (·.node))) {st st' : St}
    (h : tableEmptyW env locs c' st = .ok st') (p : Option Nat) (ls : List Int) (hls : ∀ l ∈ ls, AtLevel c l st.f) :
    st'.ctx = st.ctx ∧ ∃ ms, LEmits False env c p
      (([.lit ['{'], .gap 0 (tableHint c), .lit ['}']] : List Slot).flatMap (slotItems locs ks)) ms st.f st'.f ∧
      PlainIn c ms z st.ctx p (.mk .tableConstructorEmpty span locs (rs.map (·.node))) ∧
      ∀ r, p = some r → ∀ l ∈ ls, (r, Mk.lvl l) ∈ ms := by
  obtain ⟨e, g⟩ := tableEmptyW_ok (L := False) (ks := ks) hv h
  have hh : (c'.str .hintTableConstructor).getD [] = tableHint c := by rw [← hv.tableHint]; rfl
  simp only [tableEmptyW, Res.bind_eq_ok, hh] at h
  obtain ⟨t, ht, st1, h1, h2⟩ := h
  rw [hv.commentHint] at ht
  obtain ⟨e1, g1⟩ := nlW_gap hv h1 (fun hb => .inr ⟨t, ht, hb⟩)
  cases h2
  refine ⟨e, marksAt p (ls.map .lvl) ++ [], .lit _ (lvl_holds hls _) (.gap ⟨g1, .inr ⟨by simp, _, rfl⟩⟩ (.inr (NoEnd.quiet trivial)) (.lit0 .nil)), fun _ _ _ => landmarks_mk ?_ (fun i n loc _ hb => hb.elim)
    (fun g op loc h => (by cases h)) (fun ⟨_, ⟨_, _, e⟩, _⟩ => by cases e) ?_, fun r hr l hl => List.mem_append_left _ (lvl_mem hr hl)⟩
  · rintro g d loc (⟨o, places, hb, _⟩ | ⟨h, _⟩) _
    · cases hb
    · cases h
  · intro j n hn
    have := hR.few rfl rfl
    have h2 : j < (rs.map (·.node)).length := (List.getElem?_eq_some_iff.1 hn).1
    simp only [arity, Tag.template] at this
    omega

/-! ### Arms -/

/-- A list has no other lines than those of its items. -/
theorem breaksAt_list {c : Config} {z : List NOpt} {t : Tag} {kids : List Node} (h : t.seps.isSome = true ∨ t.isPlainList = true) {g d : Nat}
    (hb : Breaks.At c z t kids g d) : False := by
  rcases hb with ⟨o, places, hb, _⟩ | ⟨rfl, _⟩
  · cases t <;> first | (cases hb; done) | (simp [Tag.seps, Tag.isPlainList] at h; done)
  · simp [Tag.seps, Tag.isPlainList] at h

theorem depth_list {c : Config} {o : Option Str} {t : Tag} (h : t.seps.isSome = true ∨ t.isPlainList = true) (i : Nat)
    (kid : Node) : Depth c o t i kid 0 o := by
  rw [depth_iff (by rintro op rfl; simp [Tag.seps, Tag.isPlainList] at h)]
  have : bodies t = [] := by
    cases t <;> first | rfl | (simp [Tag.seps, Tag.isPlainList] at h; done)
  have h2 : listKids t = [] := by
    cases t <;> first | rfl | (simp [Tag.seps, Tag.isPlainList] at h; done)
  rw [this, h2, if_neg (show i ∉ ([] : List Nat) by simp)]
  exact ⟨by simp, .inl ⟨rfl, by simp⟩⟩

theorem nests_list {t : Tag} (h : t.seps.isSome = true ∨ t.isPlainList = true) (j : Nat) : nests t j = false := by
  cases t <;> first | rfl | (simp [Tag.seps, Tag.isPlainList] at h; done)

theorem kidGap_list {t : Tag} (h : t.seps.isSome = true ∨ t.isPlainList = true) (j : Nat) :
    kidGap t j = some (itemPlace t j) := by
  cases t <;> first | rfl | (simp [Tag.seps, Tag.isPlainList] at h; done)

/-- The specification for a list, from what holds of its items. -/
theorem landmarks_list {c : Config} {ms : List (Nat × Mk)} {z : List NOpt} {x : Ctx} {p : Option Nat} {t : Tag} {span : Loc} {locs locs' : List Loc}
    {ns : List Node} (hl : t.seps.isSome = true ∨ t.isPlainList = true) (hR : ReadyAt t span locs ns)
    (h : ItemsHold c ms z x t (· == 0) locs' ns)
    (he : ∀ j, j < ns.length → locs'[j]? = locs[itemPlace t j]?) : PlainIn c ms z x p (.mk t span locs ns) := by
  refine fun _ h0 hf0 => landmarks_mk (fun g d loc hb => (breaksAt_list hl hb).elim) ?_ ?_
    (fun ⟨_, ⟨_, _, e⟩, _⟩ => by rw [e] at hl; simp [Tag.seps, Tag.isPlainList] at hl)
    fun j n hn => ⟨0, _, depth_list hl _ _, ?_⟩
  · intro j n loc hn hb hloc
    have hj : j < ns.length := (List.getElem?_eq_some_iff.1 hn).1
    have := h.2 j n loc hn (by rw [he j hj]; exact hloc) hb (hR.items c j n loc hn (ItemBreaks_nil hb) hloc)
    unfold InMarks
    rwa [show ((x.1.toNat : Nat) : Int) = x.1 by omega]
  · rintro g op loc rfl
    simp [Tag.seps, Tag.isPlainList] at hl
  · obtain ⟨loc, hloc, hL⟩ := h.1 j n hn
    rw [show (ctxIn x || nests t j) = ctxIn x by rw [nests_list hl, Bool.or_false]]
    refine hL (fun _ _ => ?_) h0 hf0
    have hj : j < ns.length := (List.getElem?_eq_some_iff.1 hn).1
    rw [he j hj] at hloc
    have := hR.starts j n hn
    rw [kidGap_list hl] at this
    rwa [← locAt_of hloc]

theorem plainW_marks {env : Env} (hr : env.posRange = none) {c : Config} {t : Tag} {span : Loc} {locs : List Loc}
    {rs : List R} {ks : List (List Item)} (hl : t.leafText = none) (hK : KidsB env c rs ks)
    (hW : ∀ r ∈ rs, WLB c r) (hG : ∀ l ∈ locs, GapAt env l) (hR : ReadyAt t span locs (rs.map (·.node))) :
    WP env c (plainW env t span locs rs) (itemsOf c t locs (rs.map (·.node.tag)) ks)
      (.mk t span locs (rs.map (·.node))) := by
  intro z c' st st' p ls hv hk hfr h hls
  unfold itemsOf
  simp only [hl]
  unfold plainW at h
  split at h
  · exact binaryW_marks hv hk hK hR hfr h p ls hls
  · obtain ⟨a, ms, b, d, e⟩ := tableW_marks hr hv hk hK hR hfr h p ls hls
    exact ⟨a, ms, b, d, fun r hr o hc l hl ho => e r hr l hl ((calmAt_table hc).imp_right ho)⟩
  · obtain ⟨a, ms, b, d, e⟩ := tableEmptyW_marks (ks := ks) hv hR h p ls hls
    exact ⟨a, ms, b, d, fun r hr _ _ l hl _ => e r hr l hl⟩
  · next h1 h2 h3 =>
    have hframe : frame c t = (t.template c).map (·.flatMap Fm.slots) := by
      unfold frame; split
      · exact absurd rfl (h1 _)
      · exact absurd rfl (h2 _ _)
      · exact absurd rfl h3
      · rfl
    rw [hframe, ← variant_template hv]
    cases ht : t.template c' with
    | some fms =>
      rw [ht] at h
      exact template_marks hK hW hG hR hv hk ht p ls hls hfr h
    | none =>
      rw [ht] at h
      simp only [Res.bind_eq_ok, Res.pure_eq, Option.map_none] at h ⊢
      obtain ⟨⟨st1, b⟩, h4, h5⟩ := h
      cases h5
      unfold listW at h4
      have calm : ∀ {r : Nat} {ms : List (Nat × Mk)},
          (t.calmList = true → ∀ r ls' n ns, locs = ⟨r, r⟩ :: ls' → rs.map (·.node) = n :: ns → ∀ o, CalmAt c r o n →
            ∀ l ∈ ls, (o = true → l = st.ctx.1) → (r, Mk.lvl l) ∈ ms) →
          ∀ o, CalmAt c r o (.mk t span locs (rs.map (·.node))) → ∀ l ∈ ls, (o = true → l = st.ctx.1) → (r, Mk.lvl l) ∈ ms := by
        intro r ms H o hc
        generalize hns : rs.map (·.node) = ns at hc H
        cases hc with
        | leaf h => exact absurd hl h
        | lit h =>
          obtain ⟨_, _, h⟩ := startsLit_template h c'
          rw [ht] at h; cases h
        | kid h =>
          obtain ⟨_, h⟩ := startsKid_template h c'
          rw [ht] at h; cases h
        | list hcl hc => exact H hcl _ _ _ _ rfl rfl _ hc
        | op => exact absurd rfl (h1 _)
        | empty => exact absurd rfl h3
        | table => exact absurd rfl (h2 _ _)
      cases hs : t.seps with
      | some ss =>
        rw [hs] at h4
        have hlist : t.seps.isSome = true ∨ t.isPlainList = true := .inl (by rw [hs]; rfl)
        have hlen := hR.sep ss hs
        simp only [List.length_map] at hlen
        obtain ⟨a, ms, b, d, e⟩ := sepList_marks hr hv hk hs _ _ _ _ _ _ _ _ hK hlen.1 hlen.2 hfr h4 p ls hls
        refine ⟨a, ms, b, landmarks_list hlist hR d fun j hj => ?_, fun r _ => calm e⟩
        have hp : itemPlace t j = 2 * j := by
          cases t <;> first | rfl | cases hs
        rw [List.length_map] at hj
        rw [hp, preLocs_get (by omega)]
      | none =>
        rw [hs] at h4
        simp only at h4 ⊢
        split at h4
        · next hp =>
          rw [if_pos hp]
          have hlist : t.seps.isSome = true ∨ t.isPlainList = true := .inr hp
          have hlen := hR.plain hp
          simp only [List.length_map] at hlen
          obtain ⟨a, ms, b, d, e⟩ := plainList_marks hr hv hk t _ _ _ _ _ _ _ hK hlen hfr h4 p ls hls
          refine ⟨a, ms, b, landmarks_list hlist hR d fun j hj => ?_, fun r _ => calm e⟩
          rw [show itemPlace t j = j by cases t <;> first | rfl | cases hp]
        · next hp =>
          rw [if_neg hp]
          cases h4
          refine ⟨rfl, [], .nil, fun _ _ _ => landmarks_mk ?_ ?_ (fun g op loc h => absurd h (h1 op))
            (fun ⟨_, ⟨_, _, e⟩, _⟩ => absurd e (h2 _ _)) ?_, fun r _ => calm ?_⟩
          · rintro g d loc (⟨o, places, hb, _⟩ | ⟨rfl, _⟩) _
            · exfalso
              cases t <;> first | (cases hb; done) | (cases ht; done) | exact absurd rfl (h2 _ _)
            · cases ht
          · intro i n loc _ hb
            rcases ItemBreaks_list hb with h | h
            · rw [hs] at h; cases h
            · exact absurd h hp
          · intro j n hn
            have := hR.few hs (by simpa using hp)
            have hj : j < (rs.map (·.node)).length := (List.getElem?_eq_some_iff.1 hn).1
            have ha : arity t = 0 := by
              cases t <;> first | rfl | (cases ht; done) | exact absurd rfl (h2 _ _) | exact absurd rfl (h1 _)
            omega
          · intro hc
            exfalso
            cases t <;> simp [Tag.calmList] at hc
            all_goals first | (cases hs; done) | exact absurd rfl hp

theorem onelineCfg_tag {c tc : Config} {t : Tag} {span : Loc} {st : St} (h : onelineCfg c t span st = some tc) :
    (∃ a b, t = .tableConstructor a b) ∨ t.startsLit = true := by
  unfold onelineCfg at h
  split at h
  · exact .inl ⟨_, _, rfl⟩
  · right
    split at h
    · next ht => cases t <;> first | rfl | (cases ht; done)
    · split at h
      · next ht => cases t <;> first | rfl | (cases ht; done)
      · cases h

theorem overruled_tag {c : Config} {u : Bool} {t : Tag} (h : overruled c u t ≠ []) : (foldGap t).isSome = true := by
  unfold overruled at h
  split at h
  · exact absurd rfl h
  · cases t <;> first | rfl | exact absurd rfl h

theorem slots_of_reverse {α : Type} {l r : List α} {a b : α} (h : l.reverse = a :: b :: r) : l = r.reverse ++ [b, a] := by
  rw [← List.reverse_reverse l, h]
  simp

/-- The items of a construct that may be put on one line: a literal, perhaps behind an additional gap, and at the
end a gap and a literal. -/
theorem fold_items {c : Config} {t : Tag} {g : Nat} (h : foldGap t = some g) (locs : List Loc) (tags : List Tag)
    (ks : List (List Item)) : (∃ x s is, itemsOf c t locs tags ks = (Option.toList x).map Item.extra ++ .lit s s :: is) ∧
      ∃ is y s, itemsOf c t locs tags ks = is ++ [.gap (locAt locs g) y, .lit s s] ∧
        ∃ b e, s = b ++ [e] ∧ e ≠ ' ' ∧ e ≠ '\t' := by
  have key : ∀ {sl : List Slot} {x : Option Str} {s : Str} {sl1 sl2 : List Slot} {y s' : Str}, t.leafText = none →
      frame c t = some sl → sl = (x.toList.map Slot.extra) ++ .lit s :: sl1 → sl.reverse = .lit s' :: .gap g y :: sl2 →
      (∃ b e, s' = b ++ [e] ∧ e ≠ ' ' ∧ e ≠ '\t') → (∃ x s is, itemsOf c t locs tags ks = (Option.toList x).map Item.extra ++ .lit s s :: is) ∧
      ∃ is y s, itemsOf c t locs tags ks = is ++ [.gap (locAt locs g) y, .lit s s] ∧
        ∃ b e, s = b ++ [e] ∧ e ≠ ' ' ∧ e ≠ '\t' := by
    intro sl x s sl1 sl2 y s' hl hf h1 h2 h3
    unfold itemsOf
    simp only [hl, hf]
    refine ⟨⟨x, s, sl1.flatMap (slotItems locs ks), ?_⟩, sl2.reverse.flatMap (slotItems locs ks), y, s', ?_, h3⟩
    · rw [h1]
      cases x <;> rfl
    · rw [slots_of_reverse h2]
      simp [slotItems]
  have he : ∃ b e, L!"end" = b ++ [e] ∧ e ≠ ' ' ∧ e ≠ '\t' := ⟨L!"en", 'd', rfl, by decide, by decide⟩
  cases t <;> first
    | (cases h; done)
    | (cases h; exact key (x := none) rfl rfl rfl rfl he)
    | (cases h; exact key (x := some (tableHint c)) rfl rfl rfl rfl ⟨[], '}', rfl, by decide, by decide⟩)

theorem lenTillNewline_all {s : Str} (h : '\n' ∉ s) : lenTillNewline s = s.length := by
  unfold lenTillNewline
  induction s with
  | nil => rfl
  | cons x s ih =>
    rw [List.takeWhile_cons_of_pos (by simp only [bne_iff_ne, ne_eq]; rintro rfl; simp at h)]
    simp only [List.length_cons]
    rw [ih (fun e => h (by simp [e]))]

theorem lenAfterNewline_all {s : Str} (h : '\n' ∉ s) : lenAfterNewline s = s.length := by
  have := lenAfterNewline_append (f := []) h
  simpa [lenAfterNewline, lenTillNewline] using this

/-- A construct that is written on one line: the marks before it and at its end. -/
theorem fold_marks {env : Env} (hr : env.posRange = none) {c : Config} {t : Tag} {g : Nat} (h : foldGap t = some g)
    {locs : List Loc} {tags : List Tag} {ks : List (List Item)} {p : Option Nat} {ms : List (Nat × Mk)} {line : Str}
    (hE : LEmits False env c p (itemsOf c t locs tags ks) ms [] line) (hn : '\n' ∉ line) (q : Str)
    {lo : List Int} (hlo : ∀ l ∈ lo, AtLevel c l q) :
    ∃ ms', LEmits False env c p (itemsOf c t locs tags ks) ms' q (q ++ line) ∧
      (∀ k l, (k, Mk.lvl l) ∈ ms → (k, Mk.lvl l) ∈ ms') ∧ (∀ r, p = some r → (r, Mk.beg (q.count '\n')) ∈ ms') ∧
      ((locAt locs g).r, Mk.fin (q.count '\n') (lenAfterNewline q + line.length)) ∈ ms' ∧
      ((∃ a b, t = .tableConstructor a b) → ∀ r, p = some r → ∀ l ∈ lo, (r, Mk.lvl l) ∈ ms') := by
  obtain ⟨⟨x, s, is, e1⟩, is', y, s', e2, b, e, hs, he1, he2⟩ := fold_items (c := c) h locs tags ks
  rw [e1] at hE
  obtain ⟨ms1, hE, a1, a2⟩ := hE.addFirst hr hn
  rw [← e1, e2] at hE
  obtain ⟨ms2, hE, a3, a4⟩ := hE.addLast hr (ls := [Mk.fin 0 line.length]) (by
    intro l hl g hg
    cases List.mem_singleton.1 hl
    refine ⟨List.count_eq_zero.2 hn, lenAfterNewline_all hn, g ++ b, e, ?_, he1, he2⟩
    rw [hg, hs, List.append_assoc])
  obtain ⟨ms3, hL, hsub, htab⟩ : ∃ ms3, LEmits False env c p (itemsOf c t locs tags ks) ms3 q (q ++ line) ∧
      (∀ m ∈ shiftMarks q ms2, m ∈ ms3) ∧
      ((∃ a b, t = .tableConstructor a b) → ∀ r, p = some r → ∀ l ∈ lo, (r, Mk.lvl l) ∈ ms3) := by
    rw [← e2] at hE
    by_cases ht : ∃ a b, t = .tableConstructor a b
    · obtain ⟨a, b, rfl⟩ := ht
      exact ⟨_, LEmits.liftBrace hr hE hn q hlo, fun m hm => List.mem_append_right _ hm,
        fun _ r hp l hl => List.mem_append_left _ (lvl_mem hp hl)⟩
    · have hL := hE.lift q hn
      rw [List.append_nil] at hL
      exact ⟨_, hL, fun _ h => h, fun h => absurd h ht⟩
  refine ⟨_, hL, fun k l hm => hsub _ (mem_shiftMarks (m := .lvl l) (a3 _ (a1 _ hm))), fun r hp => hsub _ ?_, hsub _ ?_, htab⟩
  · exact mem_shiftMarks (m := .beg 0) (a3 _ (a2 r hp))
  · exact mem_shiftMarks (m := .fin 0 _) (a4 _ (by simp))

mutual
/-- Inside a construct on one line nothing more has to be known of those on one line. -/
theorem Spec.Landmarks.over {c : Config} {P P' : Nat → Nat → Prop} {Q Q' : Node → Prop} (h : ∀ q k, P q k → P' q k) :
    ∀ {k : Nat} {o : Option Str} {u : Bool} {z : List NOpt} {n : Node}, z ≠ [] → Landmarks c P Q k o u z n →
      Landmarks c P' Q' k o u z n
  | _, _, _, _, .mk _ _ _ _, hz, ⟨z', hz', hn⟩ => ⟨z', hz'.imp_right fun ⟨h1, h2, _⟩ => ⟨h1, h2, fun e => absurd e hz⟩,
      fun g d loc hb hl => h _ _ (hn.1 g d loc hb hl),
      fun i n loc hi hb hl => h _ _ (hn.2.1 i n loc hi hb hl), fun g op loc ht hb hl => h _ _ (hn.2.2.1 g op loc ht hb hl),
      fun hb => h _ _ (hn.2.2.2.1 hb),
      Spec.LandmarksAll.over h (by
        rcases hz' with rfl | ⟨_, rfl, _⟩
        · exact hz
        · simp [hz]) hn.2.2.2.2⟩
theorem Spec.LandmarksAll.over {c : Config} {P P' : Nat → Nat → Prop} {Q Q' : Node → Prop} (h : ∀ q k, P q k → P' q k) :
    ∀ {k : Nat} {o : Option Str} {u : Bool} {z : List NOpt} {tag : Tag} {i : Nat} {ns : List Node}, z ≠ [] →
      LandmarksAll c P Q k o u z tag i ns → LandmarksAll c P' Q' k o u z tag i ns
  | _, _, _, _, _, _, [], _, _ => trivial
  | _, _, _, _, _, _, _ :: _, hz, ⟨⟨d, o', hd, hn⟩, hns⟩ =>
    ⟨⟨d, o', hd, Spec.Landmarks.over h hz hn⟩, Spec.LandmarksAll.over h hz hns⟩
end

theorem LandmarksWith.over {c : Config} {P P' : Nat → Nat → Prop} {Q Q' : Node → Prop} {k : Nat} {o : Option Str}
    {u : Bool} {z : List NOpt} {n : Node} (hn : LandmarksWith c P Q k o u z n) (h : ∀ q k, P q k → P' q k) (hz : z ≠ []) :
    LandmarksWith c P' Q' k o u z n := by
  cases n
  exact ⟨fun g d loc hb hl => h _ _ (hn.1 g d loc hb hl), fun i n loc hi hb hl => h _ _ (hn.2.1 i n loc hi hb hl),
    fun g op loc ht hb hl => h _ _ (hn.2.2.1 g op loc ht hb hl), fun hb => h _ _ (hn.2.2.2.1 hb), hn.2.2.2.2.over h hz⟩

theorem armW_marks {env : Env} (hr : env.posRange = none) {c : Config} {t : Tag} {span : Loc} {locs : List Loc} {rs : List R}
    {ks : List (List Item)} {tags : List Tag} {ns : List Node} (hl : t.leafText = none) (hR : ReadyAt t span locs ns)
    (hT : ∀ r ∈ rs, KeepsTables r) (hp : WP env c (plainW env t span locs rs) (itemsOf c t locs tags ks) (.mk t span locs ns)) :
    WB env c (armW env t span locs rs) (itemsOf c t locs tags ks) (.mk t span locs ns) := by
  intro z c' st st' p ls hv hk hfr h hls
  unfold armW at h
  split at h
  · obtain ⟨a, ms, b, d, e⟩ := hp z _ _ _ p ls hv hk hfr h hls
    exact ⟨a, ms, b, fun h1 h2 h3 => (d h1 h2 h3).keep, e⟩
  · next tc htc =>
    have hv' := onelineCfg_variant hv htc
    obtain ⟨hne, hk'⟩ := onelineCfg_keeps hv hk htc
    simp only [Res.bind_eq_ok] at h
    obtain ⟨⟨st1, x⟩, h1, h2⟩ := h
    obtain ⟨hs, hx⟩ := testOnelineNoNl_ok h1
    cases x with
    | none =>
      obtain ⟨a, ms, b, d, e⟩ := hp z _ _ _ p ls hv hk (hfr.same fun hf => testOnelineNoNl_tables (fun _ _ h => plainW_tables (hv'.force hf) hT h) h1) h2 (by rw [hs.1]; exact hls)
      rw [hs.1] at b
      rw [hs.2] at d e
      exact ⟨a.trans hs.2, ms, b, fun h1 h2 h3 => (d h1 h2 h3).keep, e⟩
    | some line =>
      obtain ⟨hnn, st2, h3, rfl⟩ := hx line rfl
      obtain ⟨m, hm, hw⟩ := testOnelineNoNl_width h1
      rw [hv'.numEq (by decide)] at hm
      obtain ⟨a, ms, b, d, _⟩ := hp (overruled c (decide (0 < st.fn)) t ++ z) _ { st with f := [] } _ p [] hv' hk' (hfr.same fun _ => rfl) h3 (fun _ h => by cases h)
      have hnl : '\n' ∉ st2.f := by simpa [hasNewlines] using hnn
      rw [lenTillNewline_all hnl] at hw
      obtain ⟨g, hg⟩ := Option.isSome_iff_exists.1 (overruled_tag hne)
      obtain ⟨ms', b', m1, m2, m3, m4⟩ := fold_marks hr hg b hnl st.f hls
      simp only [Res.pure_eq] at h2
      have hc' : st'.ctx = st.ctx ∧ st'.f = st.f ++ st2.f := by
        cases h2
        rw [← hs.1]
        cases t <;> exact ⟨hs.2, rfl⟩
      rw [← hc'.2] at b'
      have hroot : t.isRoot = false := by
        cases t <;> first | rfl | (cases hg; done)
      have hz : overruled c (decide (0 < st.fn)) t ++ z ≠ [] := by simp [hne]
      have main : ∀ ms'', (∀ x ∈ ms', x ∈ ms'') → LandmarksIn c ms'' z st.ctx p (.mk t span locs ns) := by
        intro ms'' hsub hp0 h0 hf0
        have dd := d (fun e => absurd e hz) h0 hf0
        refine ⟨overruled c (decide (0 < st.fn)) t ++ z, .inr ⟨hne, rfl, fun hz => ?_⟩, ?_⟩
        · refine ⟨_, _, m, locAt locs g, hsub _ (m2 _ (hp0 hz hroot)), ?_, hsub _ m3, hm, hw⟩
          have hlen := hR.ends g hg
          show locs.getLast? = _
          rw [List.getLast?_eq_getElem?, hlen, Nat.add_sub_cancel]
          have : locs[g]? = some (locs[g]'(by omega)) := List.getElem?_eq_getElem (by omega)
          rw [this, locAt_of this]
        · exact dd.over (fun q k hq => hsub _ (m1 _ _ hq)) hz
      rcases onelineCfg_tag htc with ⟨x, y, rfl⟩ | ht
      · exact ⟨hc'.1, ms', b', main ms' (fun _ h => h), fun r hr _ _ l hl _ => m4 ⟨_, _, rfl⟩ r hr l hl⟩
      · obtain ⟨s, fms, htm⟩ := startsLit_template ht c
        have hi : ∃ is, itemsOf c t locs tags ks = .lit s s :: is := by
          have hfr : frame c t = (t.template c).map (·.flatMap Fm.slots) := by
            cases t <;> first | rfl | cases ht
          unfold itemsOf
          simp only [hl, hfr, htm]
          exact ⟨_, rfl⟩
        obtain ⟨is, hi⟩ := hi
        rw [hi] at b' ⊢
        refine ⟨hc'.1, _, b'.addMarks (ls := ls.map .lvl) (fun l hl g => lvl_holds hls g l hl),
          main _ (fun x hx => by simp [hx]), ?_⟩
        intro r hr _ _ l hl' _
        exact List.mem_append_left _ (lvl_mem hr hl')

theorem writeW_marks {env : Env} (hr : env.posRange = none) {c : Config} {t : Tag} {span : Loc} {locs : List Loc}
    {rs : List R} {ks : List (List Item)} (hl : t.leafText = none) (hK : KidsB env c rs ks)
    (hW : ∀ r ∈ rs, WLB c r) (hG : ∀ l ∈ locs, GapAt env l) (hR : ReadyAt t span locs (rs.map (·.node))) :
    WB env c (writeW env t span locs rs) (itemsOf c t locs (rs.map (·.node.tag)) ks)
      (.mk t span locs (rs.map (·.node))) := by
  have harm := armW_marks hr hl hR hK.tables (plainW_marks (span := span) hr hl hK hW hG hR)
  have hw : ∀ c' st, writeW env t span locs rs c' st = armW env t span locs rs c' st := by
    intro c' st
    unfold writeW
    simp only [hl, hr, outOfRange, notContained, Bool.and_false, Bool.false_eq_true, if_false]
    cases t.shape <;> rfl
  intro z c' st st' p ls hv hk hfr h hls
  rw [hw] at h
  exact harm z c' st st' p ls hv hk hfr h hls

/-! ### Reconstruction -/

theorem CalmAt.annotate {c c' : Config} {r : Nat} {o : Bool} {n : Node} (h : CalmAt c r o n) :
    ∀ over, CalmAt c r o (Luafmt.annotate c' over n) := by
  induction h with
  | leaf h => exact fun over => .leaf (fun e => h (annotateTag_leaf.1.1 e))
  | @lit _ tag span locs kids h =>
    intro over
    refine .lit ?_
    cases tag <;> first | exact h | (cases h; done)
  | @kid _ tag span locs n ns h _ ih =>
    intro over
    refine .kid ?_ (ih _)
    cases tag <;> first | exact h | (cases h; done)
  | @list _ tag span ls n ns h _ ih =>
    intro over
    refine .list ?_ (ih _)
    cases tag <;> first | exact h | (cases h; done)
  | op _ ih => exact fun over => .op (ih _)
  | empty => exact fun over => .empty
  | table h => exact fun over => .table h

mutual
theorem tableStart_annotate {c : Config} : ∀ (n : Node) (over : Option Bool),
    tableStart (Luafmt.annotate c over n) = tableStart n
  | .mk t span locs kids, over => by
    have ih := tableStart_annotateHead kids (childSingle over t kids.length) (c := c)
    cases kids with
    | nil =>
      cases t <;> simp only [Luafmt.annotate, annotateTag, annotateAll, tableStart]
      case charStringLiteral s => split <;> rfl
    | cons n ns =>
      have ih := ih n rfl
      cases t <;> simp only [Luafmt.annotate, annotateTag, annotateAll, tableStart]
      case charStringLiteral s => split <;> rfl
      case binaryOp => rw [ih]
      case fieldSequential => exact ih
theorem tableStart_annotateHead {c : Config} : ∀ (ns : List Node) (over : Option Bool), ∀ n, ns.head? = some n →
    tableStart (Luafmt.annotate c over n) = tableStart n
  | [], _, _, h => (by cases h)
  | n :: _, over, m, h => by
    cases h
    exact tableStart_annotate n over
end

theorem itemBreaks_annotate {c : Config} {z : List NOpt} {over over' : Option Bool} {t : Tag} {ns : List Node} {b : Bool} {n : Node}
    {c' : Config} :
    ItemBreaks c z (annotateTag c' over t ns) b (Luafmt.annotate c' over' n) ↔ ItemBreaks c z t b n := by
  have e1 : (Luafmt.annotate c' over' n).tag = .tableMember ↔ n.tag = .tableMember := by
    cases n with
    | mk tag =>
      cases tag <;> simp [Luafmt.annotate, Node.tag, annotateTag]
      case charStringLiteral s => split <;> simp
  have e3 : (∃ a b, (Luafmt.annotate c' over' n).tag = .tableConstructor a b) ↔ ∃ a b, n.tag = .tableConstructor a b := by
    cases n with
    | mk tag =>
      cases tag <;> simp [Luafmt.annotate, Node.tag, annotateTag]
      case charStringLiteral s => split <;> simp
  have e2 : (Luafmt.annotate c' over' n).tag = .fnMethodCall ↔ n.tag = .fnMethodCall := by
    cases n with
    | mk tag =>
      cases tag <;> simp [Luafmt.annotate, Node.tag, annotateTag]
      case charStringLiteral s => split <;> simp
  cases t <;> simp only [annotateTag, ItemBreaks, BraceStays, tableStart_annotate, e3, e1, e2]
  case charStringLiteral s => by_cases h : c'.bool .convertCharstringToNormalstring = some true <;> simp [h]

theorem itemPlace_annotate {c : Config} {over : Option Bool} {t : Tag} {ns : List Node} {i : Nat} :
    itemPlace (annotateTag c over t ns) i = itemPlace t i := by
  cases t <;> simp only [annotateTag] <;> first | rfl | (split <;> rfl)

theorem annotateTag_op {c : Config} {over : Option Bool} {t : Tag} {ns : List Node} {op : Str} :
    annotateTag c over t ns = .binaryOp op ↔ t = .binaryOp op := by
  cases t <;> simp [annotateTag]
  case charStringLiteral s => split <;> simp

theorem annotateAll_get {c : Config} {ns : List Node} {over : Option Bool} {i : Nat} {m : Node}
    (h : (annotateAll c over ns)[i]? = some m) : ∃ n, ns[i]? = some n ∧ m = annotate c over n := by
  induction ns generalizing i with
  | nil => simp [annotateAll] at h
  | cons n ns ih =>
    cases i with
    | zero => cases h; exact ⟨n, rfl, rfl⟩
    | succ i => exact ih (by simpa [annotateAll] using h)

theorem annotateAll_get' {c : Config} {ns : List Node} {over : Option Bool} {i : Nat} {n : Node}
    (h : ns[i]? = some n) : (annotateAll c over ns)[i]? = some (annotate c over n) := by
  induction ns generalizing i with
  | nil => simp at h
  | cons n ns ih =>
    cases i with
    | zero => cases h; rfl
    | succ i => exact ih (by simpa using h)

theorem annotateAll_length (c : Config) (over : Option Bool) (ns : List Node) :
    (annotateAll c over ns).length = ns.length := by
  induction ns with
  | nil => rfl
  | cons n ns ih => simp [annotateAll, ih]

theorem annotateTag_isFields {c : Config} {over : Option Bool} {t : Tag} {ks : List Node} :
    (annotateTag c over t ks).isFields = t.isFields := by
  cases t <;> simp only [annotateTag, Tag.isFields]
  case charStringLiteral s => by_cases h : c.bool .convertCharstringToNormalstring = some true <;> simp [h]

theorem annotate_tag_seq {c : Config} {over : Option Bool} {n : Node} :
    (annotate c over n).tag = .fieldSequential ↔ n.tag = .fieldSequential := by
  cases n with
  | mk tag =>
    cases tag <;> simp [annotate, Node.tag, annotateTag]
    case charStringLiteral s => split <;> simp

theorem all_annotate {c : Config} {over : Option Bool} {q : Node → Bool} {ns : List Node}
    (h : ∀ n ∈ ns, q (annotate c over n) = q n) : (annotateAll c over ns).all q = ns.all q := by
  induction ns with
  | nil => rfl
  | cons n ns ih =>
    rw [annotateAll, List.all_cons, List.all_cons, h n (by simp), ih fun n hn => h n (by simp [hn])]

theorem valuesOnly_annotate {c : Config} {over : Option Bool} {ns : List Node} :
    valuesOnly (annotateAll c over ns) = valuesOnly ns := by
  match ns with
  | [] => rfl
  | [.mk t span locs kids] =>
    simp only [annotateAll, annotate, valuesOnly]
    exact all_annotate fun n _ => by simp only [annotate_tag_seq]
  | .mk .. :: .mk .. :: _ => rfl

theorem annotate_span {c : Config} {over : Option Bool} {n : Node} : (annotate c over n).span = n.span := by
  cases n; rfl

theorem overruled_annotate {c c' : Config} {u : Bool} {over : Option Bool} {t : Tag} {ns : List Node} :
    overruled c u (annotateTag c' over t ns) = overruled c u t := by
  cases t <;> simp only [annotateTag] <;> first | rfl | (split <;> rfl)

theorem nests_annotate {c : Config} {over : Option Bool} {t : Tag} {ns : List Node} {i : Nat} :
    nests (annotateTag c over t ns) i = nests t i := by
  cases t <;> simp only [annotateTag] <;> first | rfl | (split <;> rfl)

theorem ReadyAt.annotate {c : Config} {over over' : Option Bool} {t : Tag} {span : Loc} {locs : List Loc} {kids : List Node}
    (h : ReadyAt t span locs kids) :
    ReadyAt (annotateTag c over t (annotateAll c over' kids)) span locs (annotateAll c over' kids) := by
  have hiv : ∀ b, annotateTag c over t (annotateAll c over' kids) = .tableConstructor (some true) b →
      valuesOnly (annotateAll c over' kids) = true := by
    intro b hb
    have ht : ∃ iv single, t = .tableConstructor iv single := by
      cases t <;> simp [annotateTag] at hb
      case tableConstructor => exact ⟨_, _, rfl⟩
      case charStringLiteral s => split at hb <;> cases hb
    obtain ⟨iv, single, rfl⟩ := ht
    simp only [annotateTag, Tag.tableConstructor.injEq] at hb
    have hb := hb.1
    match kids, h, hb with
    | [], h, hb => exact (by simpa [valuesOnly] using h.iv single (by rw [← hb]; rfl))
    | _ :: _ :: _, h, hb => exact (by simpa [valuesOnly] using h.iv single (by rw [← hb]; rfl))
    | [.mk tag s l ks], h, hb =>
      simp only [annotateAll, Luafmt.annotate, Node.isIv, Node.tag] at hb
      have hf : ∃ a b d, tag = .fields a b d := by
        cases tag <;> simp [annotateTag] at hb
        case fields => exact ⟨_, _, _, rfl⟩
        case charStringLiteral s =>
          by_cases hc : c.bool .convertCharstringToNormalstring = some true <;> simp [hc] at hb
      obtain ⟨a, b', d, rfl⟩ := hf
      simp only [annotateTag, Option.some.injEq] at hb
      simp only [annotateAll, Luafmt.annotate, valuesOnly]
      rw [← hb]
      congr 1
      funext n
      unfold Node.isSeq
      cases n with
      | mk tag => cases tag <;> simp [Node.tag]
  suffices H : ∀ ns, (∀ b, annotateTag c over t ns = .tableConstructor (some true) b →
      valuesOnly (annotateAll c over' kids) = true) → ReadyAt (annotateTag c over t ns) span locs (annotateAll c over' kids) from
    H _ hiv
  clear hiv
  intro ns hiv
  have e1 : (annotateTag c over t ns).seps = t.seps := by
    cases t <;> simp only [annotateTag, Tag.seps]
    case charStringLiteral s => by_cases h : c.bool .convertCharstringToNormalstring = some true <;> simp [h]
  have e2 : (annotateTag c over t ns).isPlainList = t.isPlainList := by
    cases t <;> simp only [annotateTag, Tag.isPlainList]
    case charStringLiteral s => by_cases h : c.bool .convertCharstringToNormalstring = some true <;> simp [h]
  have e3 : arity (annotateTag c over t ns) = arity t := by
    cases t <;> simp only [annotateTag] <;> first | rfl | (split <;> rfl)
  have e4 : ((annotateTag c over t ns).template Config.default).isSome = (t.template Config.default).isSome := by
    cases t <;> simp only [annotateTag] <;> first | rfl | (split <;> rfl)
  have e6 : ∀ j, kidGap (annotateTag c over t ns) j = kidGap t j := by
    intro j
    cases t <;> simp only [annotateTag] <;> first | rfl | (split <;> rfl)
  have e7 : foldGap (annotateTag c over t ns) = foldGap t := by
    cases t <;> simp only [annotateTag] <;> first | rfl | (split <;> rfl)
  have e5 : kidGaps (annotateTag c over t ns) = kidGaps t := by
    cases t <;> simp only [annotateTag] <;> first | rfl | (split <;> rfl)
  refine ⟨?_, ?_, ?_, ?_, ?_, ?_, ?_, ?_, ?_, hiv⟩
  · rw [e1, e2, e3, annotateAll_length]; exact h.few
  · rw [e4]
    intro hs n hn
    obtain ⟨i, hi⟩ := List.mem_iff_getElem?.1 hn
    obtain ⟨m, hm, rfl⟩ := annotateAll_get hi
    have := h.noFields hs m (List.mem_of_getElem? hm)
    cases m
    simpa only [Luafmt.annotate, Node.tag, annotateTag_isFields] using this
  · rw [e5]
    intro c' g i n hg hn
    obtain ⟨m, hm, rfl⟩ := annotateAll_get hn
    exact (h.calm c' g i m hg hm).annotate _
  · rw [e1, annotateAll_length]; exact h.sep
  · rw [e2, annotateAll_length]; exact h.plain
  · intro c' j n loc hn hb hl
    obtain ⟨m, hm, rfl⟩ := annotateAll_get hn
    rw [itemBreaks_annotate] at hb
    rw [itemPlace_annotate] at hl
    exact (h.items c' j m loc hm hb hl).annotate _
  · intro c' op n loc ht hn hb hl
    obtain ⟨m, hm, rfl⟩ := annotateAll_get hn
    rw [BraceStays, tableStart_annotate] at hb
    exact (h.operand c' op m loc (annotateTag_op.1 ht) hm hb hl).annotate _
  · intro j n hn
    obtain ⟨m, hm, rfl⟩ := annotateAll_get hn
    rw [e6, annotate_span]
    exact h.starts j m hm
  · rw [e7]; exact h.ends

mutual
/-- All nodes have the shape of the parser's nodes. -/
def Ready : Node → Prop
  | .mk t span locs kids => ReadyAt t span locs kids ∧ ReadyAll kids
def ReadyAll : List Node → Prop
  | [] => True
  | n :: ns => Ready n ∧ ReadyAll ns
end

theorem mkRs_nodes (env : Env) (ns : List Node) : (mkRs env ns).map (·.node) = ns := by
  induction ns with
  | nil => rfl
  | cons n ns ih => cases n; simp only [mkRs, mkR, List.map_cons, ih]

/-- The list writers of nodes. -/
theorem wlb_all {env : Env} (hr : env.posRange = none) (c : Config) (over : Option Bool) : ∀ ns : List Node, ReadyAll ns →
    Node.LiveAll env ns → ∀ r ∈ mkRs env (annotateAll c over ns), WLB c r
  | [], _, _, r, h => (by cases h)
  | .mk tag span locs kids :: ns, hp, hlive, r, h => by
    simp only [annotateAll, mkRs, List.mem_cons] at h
    rcases h with rfl | h
    · intro z c' st hv hk
      refine ⟨fun e => ?_, fun st' b e i n hn hb => ?_⟩
      · have := (mkR_live (S := False) (env := env) (fun h => h.elim) _ (annotate_live c _ over hlive.1)).wl c'
          (fun h => h.elim) st (fun h => h.elim)
        rw [e] at this
        exact this
      · have hR := (hp.1.1.annotate (c := c) (over := over) (over' := childSingle over tag kids.length)
          )
        simp only [annotate, mkR, Node.tag, Node.kids] at e hn hb
        generalize annotateTag c over tag _ = t at e hb hR
        generalize annotateAll c (childSingle over tag kids.length) kids = ks at e hn hR
        have hj : (mkRs env ks)[i]? = some (mkR env n) := by
          clear e hR hb
          induction ks generalizing i with
          | nil => simp at hn
          | cons a ks ih =>
            cases i with
            | zero => cases hn; rfl
            | succ i => simpa [mkRs] using ih i (by simpa using hn)
        have hlen : (mkRs env ks).length = ks.length := by
          rw [← List.length_map (f := (·.node)), mkRs_nodes]
        have hb' : ItemBreaks c z t (i == 0) (mkR env n).node := by cases n; exact hb
        unfold listW at e
        cases hs : t.seps with
        | some ss =>
          rw [hs] at e
          have := hR.sep ss hs
          exact sepList_ind hr hv hk (by omega) (by omega) e hj hb'
        | none =>
          rw [hs] at e
          simp only at e
          split at e
          · next hpl =>
            have := hR.plain hpl
            exact plainList_ind hr hv hk (by omega) e hj hb'
          · next hpl =>
            rcases ItemBreaks_list hb with h | h
            · rw [hs] at h; cases h
            · exact absurd h hpl
    · exact wlb_all hr c over ns hp.2 hlive.2 r h

mutual
/-- Writing a node begins the lines that the specification asks for. -/
theorem write_marks {env : Env} (hr : env.posRange = none) (c : Config) (over : Option Bool) :
    ∀ n : Node, Ready n → n.Live env → WB env c (mkR env (annotate c over n)).w (n.items c) (annotate c over n)
  | .mk tag span locs kids, hp, hlive => by
    have ih := writeAll_marks hr c (childSingle over tag kids.length) kids hp.2 hlive.2.2.2.2
    have hW := wlb_all hr c (childSingle over tag kids.length) kids hp.2 hlive.2.2.2.2
    by_cases hl : tag.leafText = none
    · have hR : ReadyAt (annotateTag c over tag (annotateAll c (childSingle over tag kids.length) kids)) span locs
          ((mkRs env (annotateAll c (childSingle over tag kids.length) kids)).map (·.node)) := by
        rw [mkRs_nodes]; exact hp.1.annotate
      have := writeW_marks (span := span) hr (annotateTag_leaf.1.2 hl) ih hW hlive.2.1 hR
      rw [mkRs_tags, mkRs_nodes, itemsOf_annotate hl (annotateAll_hints c _ kids)] at this
      simpa only [annotate, mkR, Node.items] using this
    · intro z c' st st' p ls hv hk hfr h hls
      obtain ⟨s, hs⟩ := Option.ne_none_iff_exists'.1 hl
      have e := (annotateTag_leaf (c := c) (over := over) (t := tag)
        (ks := annotateAll c (childSingle over tag kids.length) kids)).2 hl
      have hne : (annotateTag c over tag (annotateAll c (childSingle over tag kids.length) kids)).leafText ≠ none :=
        fun h => hl (annotateTag_leaf.1.1 h)
      obtain ⟨s', hs'⟩ := Option.ne_none_iff_exists'.1 hne
      simp only [annotate, mkR, writeW, hs'] at h
      cases h
      simp only [Node.items, itemsOf, hs]
      rw [← e, hs']
      have hk0 : kids = [] := by
        have hq : tag.seps = none ∧ tag.isPlainList = false ∧ arity tag = 0 := by
          cases tag <;> first | exact ⟨rfl, rfl, rfl⟩ | cases hs
        have := hp.1.few hq.1 hq.2.1
        rw [hq.2.2] at this
        exact List.eq_nil_of_length_eq_zero (by omega)
      subst hk0
      refine ⟨rfl, marksAt p (ls.map .lvl) ++ [], .lit _ (lvl_holds hls _) .nil, fun _ _ _ => ⟨z, .inl rfl, ?_,
        fun i n loc hi => (by simp [annotateAll] at hi), ?_, fun ⟨_, ⟨_, _, e⟩, _⟩ => absurd (by rw [e]; rfl) hne, trivial⟩, fun r hr _ _ l hl _ => ?_⟩
      · intro g d loc hb
        exfalso
        generalize annotateTag c over tag _ = t at hb hne
        rcases hb with ⟨o, places, hb, _⟩ | ⟨rfl, _⟩
        · cases t <;> first | (cases hb; done) | exact hne rfl
        · exact hne rfl
      · intro g op loc h
        rw [h] at hne
        exact absurd rfl hne
      · exact List.mem_append_left _ (lvl_mem hr hl)
theorem writeAll_marks {env : Env} (hr : env.posRange = none) (c : Config) (over : Option Bool) :
    ∀ ns : List Node, ReadyAll ns → Node.LiveAll env ns →
      KidsB env c (mkRs env (annotateAll c over ns)) (Node.itemsAll c ns)
  | [], _, _ => .nil
  | n :: ns, hp, hlive => .cons (by
      have := write_marks hr c over n hp.1 hlive.1
      cases n
      exact this) (items_head c n) (mkR_tables env _) (writeAll_marks hr c over ns hp.2 hlive.2)
end

/-! ### Back to the tree of the parser -/

theorem breaksAt_annotate {c : Config} {z : List NOpt} {over over' : Option Bool} {t : Tag} {ns kids : List Node} {g d : Nat}
    (h : Breaks.At c z t kids g d) : Breaks.At c z (annotateTag c over t ns) (annotateAll c over' kids) g d := by
  rcases h with ⟨o, places, hb, h⟩ | ⟨rfl, h⟩
  · rw [← valuesOnly_annotate (c := c) (over := over') (ns := kids)] at h
    refine .inl ⟨o, places, ?_, h⟩
    cases t <;> first | exact hb | (cases hb; done)
  · exact .inr ⟨rfl, h⟩

theorem hasIndent_annotate {c : Config} {over : Option Bool} {n : Node} (h : HasIndent c n) :
    HasIndent c (annotate c over n) := by
  obtain ⟨t, span, locs, kids⟩ := n
  have key : ∀ {P : Prop} {t t' : Tag} {over' : Option Bool},
      (∀ b m, ItemBreaks c [] t b m → ItemBreaks c [] t' b (annotate c over' m)) →
      (P ∧ kids ≠ [] ∨ ∃ (i : Nat) (n : Node), kids[i]? = some n ∧ ItemBreaks c [] t (i == 0) n) →
      (P ∧ annotateAll c over' kids ≠ [] ∨ ∃ (i : Nat) (n : Node), (annotateAll c over' kids)[i]? = some n ∧
        ItemBreaks c [] t' (i == 0) n) := by
    intro P t t' over' hb hx
    refine hx.imp (fun ⟨h1, h2⟩ => ⟨h1, fun e => h2 ?_⟩) (fun ⟨i, n, h1, h2⟩ => ⟨i, _, annotateAll_get' h1, hb _ _ h2⟩)
    exact List.eq_nil_of_length_eq_zero (by rw [← annotateAll_length c over' kids, e]; rfl)
  cases t <;> try exact h.elim
  case expList s =>
    exact ⟨h.1, key (fun b m hb => (itemBreaks_annotate (c' := c) (over := over) (ns := kids)).2 hb) h.2⟩
  case varSuffixList =>
    exact ⟨h.1, key (fun b m hb => (itemBreaks_annotate (c' := c) (over := over) (ns := kids)).2 hb) h.2⟩

theorem depth_annotate {c : Config} {over over' : Option Bool} {t : Tag} {kid : Node} {ns : List Node} {i d : Nat}
    {o o' : Option Str} (h : Depth c o (annotateTag c over t ns) i (annotate c over' kid) d o') :
    Depth c o t i kid d o' := by
  have e0 : listKids (annotateTag c over t ns) = listKids t := by
    cases t <;> simp only [annotateTag] <;> first | rfl | (split <;> rfl)
  have e1 : bodies (annotateTag c over t ns) = bodies t := by
    cases t <;> simp only [annotateTag] <;> first | rfl | (split <;> rfl)
  have e2 : (∃ a b, annotateTag c over t ns = .tableConstructor a b) → ∃ a b, t = .tableConstructor a b := by
    cases t <;> simp [annotateTag]
    case charStringLiteral s => by_cases h : c.bool .convertCharstringToNormalstring = some true <;> simp [h]
  have e4 : (∃ s, (annotate c over' kid).tag = .expList s) → ∃ s, kid.tag = .expList s := by
    obtain ⟨tag, _, _, _⟩ := kid
    cases tag <;> simp [annotate, Node.tag, annotateTag]
    case charStringLiteral s => by_cases h : c.bool .convertCharstringToNormalstring = some true <;> simp [h]
  have e5 : (annotate c over' kid).tag = .varSuffixList → kid.tag = .varSuffixList := by
    obtain ⟨tag, _, _, _⟩ := kid
    cases tag <;> simp [annotate, Node.tag, annotateTag]
    case charStringLiteral s => by_cases h : c.bool .convertCharstringToNormalstring = some true <;> simp [h]
  by_cases hop : ∃ op, t = .binaryOp op
  · obtain ⟨op, rfl⟩ := hop
    exact h
  rw [depth_iff (fun op e => hop ⟨op, annotateTag_op.1 e⟩), e1, e0] at h
  rw [depth_iff (fun op e => hop ⟨op, e⟩)]
  refine ⟨h.1, ?_⟩
  have h := h.2
  by_cases hi : i ∈ bodies t
  · rw [if_pos hi] at h ⊢
    exact h.imp id (fun h => ⟨h.1, h.2.1, e2 h.2.2⟩)
  · rw [if_neg hi] at h ⊢
    exact h.imp (fun h => ⟨h.1, fun hk hI => h.2 hk (hasIndent_annotate hI)⟩)
      (fun h => ⟨h.1, h.2.imp (fun h => ⟨e4 h.1, h.2⟩) (fun h => ⟨e5 h.1, h.2⟩)⟩)

theorem operatorBreaks_annotate {c : Config} {over : Option Bool} {kids : List Node} {g : Nat} (h : OperatorBreaks c kids g) :
    OperatorBreaks c (annotateAll c over kids) g := by
  refine ⟨h.1, h.2.imp id fun h => ⟨h.1, h.2.1, fun n hn => ?_⟩⟩
  obtain ⟨m, hm, rfl⟩ := annotateAll_get hn
  rw [BraceStays, tableStart_annotate]
  exact h.2.2 m hm

theorem braceBreaks_annotate {c : Config} {z : List NOpt} {over : Option Bool} {t : Tag} {ns : List Node}
    (h : BraceBreaks c z t) : BraceBreaks c z (annotateTag c over t ns) := by
  obtain ⟨h1, ⟨a, b, rfl⟩, h2⟩ := h
  exact ⟨h1, ⟨_, _, rfl⟩, h2⟩

mutual
theorem landmarks_annotate {c : Config} {P : Nat → Nat → Prop} {Q : Node → Prop} (hQ : ∀ over n, Q (annotate c over n) → Q n) :
    ∀ (n : Node) {over : Option Bool} {k : Nat} {o : Option Str} {u : Bool} {z : List NOpt},
      Landmarks c P Q k o u z (annotate c over n) → Landmarks c P Q k o u z n
  | .mk tag span locs kids, over, _, _, _, z, ⟨z', hz, h⟩ =>
    ⟨z', (by
      rw [overruled_annotate] at hz
      exact hz.imp_right fun ⟨h1, h2, h3⟩ => ⟨h1, h2, fun e => hQ over (.mk tag span locs kids) (h3 e)⟩),
      fun g d loc hb hl => h.1 g d loc (breaksAt_annotate hb) hl,
      fun i n loc hn hb hl => h.2.1 i _ loc (annotateAll_get' hn) (itemBreaks_annotate.2 hb) (by rwa [itemPlace_annotate]),
      fun g op loc ht hb hl => h.2.2.1 g op loc (annotateTag_op.2 ht) (operatorBreaks_annotate hb) hl,
      fun hb => h.2.2.2.1 (braceBreaks_annotate hb), landmarksAll_annotate hQ kids h.2.2.2.2⟩
theorem landmarksAll_annotate {c : Config} {P : Nat → Nat → Prop} {Q : Node → Prop}
    (hQ : ∀ over n, Q (annotate c over n) → Q n) {t : Tag} {over' : Option Bool} {ns' : List Node} :
    ∀ (ns : List Node) {over : Option Bool} {k i : Nat} {o : Option Str} {u : Bool} {z : List NOpt},
      LandmarksAll c P Q k o u z (annotateTag c over' t ns') i (annotateAll c over ns) → LandmarksAll c P Q k o u z t i ns
  | [], _, _, _, _, _, _, _ => trivial
  | .mk tag span locs kids :: ns, over, k, i, o, u, z, ⟨⟨d, o', hd, hn⟩, hns⟩ =>
    ⟨⟨d, o', depth_annotate hd, landmarks_annotate hQ (.mk tag span locs kids) (by rwa [nests_annotate] at hn)⟩, landmarksAll_annotate hQ ns hns⟩
end

/-- The printed program is a rendering of the items of its tree that begins the lines of the specification. -/
theorem writeTree_marks {env : Env} (hr : env.posRange = none) {c : Config} {n : Node} (hp : Ready n) (hlive : n.Live env)
    (hroot : n.tag.isRoot = true) {s : Str} (h : writeTree env c (annotate c none n) = .ok s) :
    ∃ ms, LEmits False env c none (n.items c) ms [] s ∧ Landmarks c (InMarks ms) (QM c ms) 0 none false [] n := by
  simp only [writeTree, Res.bind_eq_ok, Res.pure_eq] at h
  obtain ⟨st, h1, h2⟩ := h
  cases h2
  obtain ⟨_, ms, b, d, _⟩ := write_marks hr c none n hp hlive [] c _ _ none [] (.refl c) (.refl [] c) (fun _ _ => rfl) h1 (fun _ h => by cases h)
  refine ⟨ms, b, landmarks_annotate (fun over n h => ?_) n (d (fun _ e => ?_) (Int.le_refl _) (Int.le_refl _))⟩
  · cases n; exact h
  · cases n with
    | mk tag => cases tag <;> first | (cases hroot; done) | (cases e; done)

end Luafmt
