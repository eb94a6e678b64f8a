import Verif.Proofs.Fresh
import Verif.Proofs.Marks
import Verif.Proofs.LiveWrite

/-
Which literals of a node are written at the beginning of a line: lists and templates.
-/
namespace Luafmt
open Spec

/-! ### Nodes that begin with a literal -/

/-- The arm of the tag begins with a literal. -/
def Tag.startsLit (t : Tag) : Bool :=
  match t.template Config.default with
  | some (.el (.lit _) :: _) => true
  | _ => false

/-- The arm of the tag begins with the first child. -/
def Tag.startsKid (t : Tag) : Bool :=
  match t.template Config.default with
  | some (.el (.kid 0) :: _) => true
  | _ => false

/-- Lists that never have a newline before their first item. -/
def Tag.calmList : Tag → Bool
  | .statementList | .elseIfThenVec | .varList _ => true
  | _ => false

/-- The node starts at `r` with a literal before which nothing is written, or with the brace of a table. The flag tells
whether that brace may be on a line of its own, on the level of the node. -/
inductive CalmAt (c : Config) (r : Nat) : Bool → Node → Prop
  | leaf {tag : Tag} {span : Loc} {locs : List Loc} {kids : List Node} : tag.leafText ≠ none →
      CalmAt c r o (.mk tag span locs kids)
  | lit {tag : Tag} {span : Loc} {locs : List Loc} {kids : List Node} : tag.startsLit = true →
      CalmAt c r o (.mk tag span locs kids)
  | kid {tag : Tag} {span : Loc} {locs : List Loc} {n : Node} {ns : List Node} : tag.startsKid = true → CalmAt c r o n →
      CalmAt c r o (.mk tag span locs (n :: ns))
  | list {tag : Tag} {span : Loc} {ls : List Loc} {n : Node} {ns : List Node} : tag.calmList = true → CalmAt c r o n →
      CalmAt c r o (.mk tag span (⟨r, r⟩ :: ls) (n :: ns))
  | op {op : Str} {span : Loc} {locs : List Loc} {n : Node} {ns : List Node} : CalmAt c r false n →
      CalmAt c r o (.mk (.binaryOp op) span locs (n :: ns))
  | empty {span : Loc} {locs : List Loc} {kids : List Node} : CalmAt c r o (.mk .tableConstructorEmpty span locs kids)
  | table {a b : Option Bool} {span : Loc} {locs : List Loc} {kids : List Node} :
      c.bool .writeNewlineAtMultilineTable ≠ some true ∨ o = true → CalmAt c r o (.mk (.tableConstructor a b) span locs kids)

theorem startsLit_template {t : Tag} (h : t.startsLit = true) (c : Config) :
    ∃ s ms, t.template c = some (.el (.lit s) :: ms) := by
  cases t <;> first | (exact ⟨_, _, rfl⟩) | (simp [Tag.startsLit, Tag.template] at h)

theorem startsKid_template {t : Tag} (h : t.startsKid = true) (c : Config) :
    ∃ ms, t.template c = some (.el (.kid 0) :: ms) := by
  cases t <;> first | (exact ⟨_, rfl⟩) | (simp [Tag.startsKid, Tag.template] at h)

theorem startsLit_leaf {t : Tag} (h : t.startsLit = true) : t.leafText = none := by
  cases t <;> first | rfl | (simp [Tag.startsLit, Tag.template] at h)

theorem startsKid_leaf {t : Tag} (h : t.startsKid = true) : t.leafText = none := by
  cases t <;> first | rfl | (simp [Tag.startsKid, Tag.template] at h)

theorem calmList_leaf {t : Tag} (h : t.calmList = true) : t.leafText = none := by
  cases t <;> first | rfl | (simp [Tag.calmList] at h)

theorem calmList_template {t : Tag} (h : t.calmList = true) (c : Config) : t.template c = none := by
  cases t <;> first | rfl | (simp [Tag.calmList] at h)

/-! ### Writers -/

/-- The marks as positions and levels. -/
def InMarks (ms : List (Nat × Mk)) (q k : Nat) : Prop := (q, Mk.lvl k) ∈ ms

/-- The operator whose operands are written on the level of the printer, if there is one. -/
def ctxOp (x : Ctx) : Option Str := x.2.1.head?.join

/-- Does the printer count functions as nested? -/
def ctxIn (x : Ctx) : Bool := decide (0 < x.2.2)

/-- The whole program. -/
def Tag.isRoot : Tag → Bool
  | .chunk | .sheBangChunk => true
  | _ => false

/-- The marks tell that a node is on one line. -/
def QM (c : Config) (ms : List (Nat × Mk)) (n : Node) : Prop :=
  ∃ k w m loc, (n.span.l, Mk.beg k) ∈ ms ∧ n.locs.getLast? = some loc ∧ (loc.r, Mk.fin k w) ∈ ms ∧
    c.num .maxWidth = some m ∧ w < m

/-- The specification holds for a node written in the given context at the given position. -/
def LandmarksIn (c : Config) (ms : List (Nat × Mk)) (z : List NOpt) (x : Ctx) (p : Option Nat) (n : Node) : Prop :=
  (z = [] → n.tag.isRoot = false → p = some n.span.l) → 0 ≤ x.1 → 0 ≤ x.2.2 →
    Landmarks c (InMarks ms) (QM c ms) x.1.toNat (ctxOp x) (ctxIn x) z n

/-- A writer that renders items of a node and begins the lines that the specification asks for. -/
def WB (env : Env) (c : Config) (w : Config → W) (is : List Item) (n : Node) : Prop :=
  ∀ z c' st st' (p : Option Nat) (ls : List Int), Variant c c' → KeepsBut z c c' → FreshTables c st → w c' st = .ok st' →
    (∀ l ∈ ls, AtLevel c l st.f) →
    st'.ctx = st.ctx ∧ ∃ ms, LEmits False env c p is ms st.f st'.f ∧
      LandmarksIn c ms z st.ctx p n ∧
      ∀ r, p = some r → ∀ o, CalmAt c r o n → ∀ l ∈ ls, (o = true → l = st.ctx.1) → (r, Mk.lvl l) ∈ ms

/-- The children with their items. -/
inductive KidsB (env : Env) (c : Config) : List R → List (List Item) → Prop
  | nil : KidsB env c [] []
  | cons {r : R} {is : List Item} {rs : List R} {ks : List (List Item)} :
      WB env c r.w is r.node → NoEnd is → KeepsTables r → KidsB env c rs ks → KidsB env c (r :: rs) (is :: ks)

theorem KidsB.tables {env : Env} {c : Config} {rs : List R} {ks : List (List Item)} (h : KidsB env c rs ks) :
    ∀ r ∈ rs, KeepsTables r := by
  induction h with
  | nil => intro k h; cases h
  | cons _ _ ht _ ih =>
    intro k hk
    rcases List.mem_cons.1 hk with rfl | hk
    · exact ht
    · exact ih k hk

theorem KidsB.heads {env : Env} {c : Config} {rs : List R} {ks : List (List Item)} (h : KidsB env c rs ks) :
    ∀ k ∈ ks, NoEnd k := by
  induction h with
  | nil => intro k h; cases h
  | cons _ hi _ _ ih =>
    intro k hk
    rcases List.mem_cons.1 hk with rfl | hk
    · exact hi
    · exact ih k hk

mutual
theorem Spec.Landmarks.mono {c : Config} {P P' : Nat → Nat → Prop} {Q Q' : Node → Prop} (h : ∀ q k, P q k → P' q k)
    (hq : ∀ n, Q n → Q' n) :
    ∀ {k : Nat} {o : Option Str} {u : Bool} {z : List NOpt} {n : Node}, Landmarks c P Q k o u z n →
      Landmarks c P' Q' k o u z n
  | _, _, _, _, .mk _ _ _ _, ⟨z', hz, hn⟩ => ⟨z', hz.imp_right fun ⟨h1, h2, h3⟩ => ⟨h1, h2, fun e => hq _ (h3 e)⟩,
      fun g d loc hb hl => h _ _ (hn.1 g d loc hb hl),
      fun i n loc hi hb hl => h _ _ (hn.2.1 i n loc hi hb hl), fun g op loc ht hb hl => h _ _ (hn.2.2.1 g op loc ht hb hl),
      fun hb => h _ _ (hn.2.2.2.1 hb), Spec.LandmarksAll.mono h hq hn.2.2.2.2⟩
theorem Spec.LandmarksAll.mono {c : Config} {P P' : Nat → Nat → Prop} {Q Q' : Node → Prop} (h : ∀ q k, P q k → P' q k)
    (hq : ∀ n, Q n → Q' n) :
    ∀ {k : Nat} {o : Option Str} {u : Bool} {z : List NOpt} {tag : Tag} {i : Nat} {ns : List Node},
      LandmarksAll c P Q k o u z tag i ns → LandmarksAll c P' Q' k o u z tag i ns
  | _, _, _, _, _, _, [], _ => trivial
  | _, _, _, _, _, _, _ :: _, ⟨⟨d, o', hd, hn⟩, hns⟩ =>
    ⟨⟨d, o', hd, Spec.Landmarks.mono h hq hn⟩, Spec.LandmarksAll.mono h hq hns⟩
end

theorem QM.mono {c : Config} {ms ms' : List (Nat × Mk)} (hs : ∀ y ∈ ms, y ∈ ms') (n : Node) (h : QM c ms n) : QM c ms' n :=
  let ⟨k, w, m, loc, h1, h2, h3, h4⟩ := h
  ⟨k, w, m, loc, hs _ h1, h2, hs _ h3, h4⟩

theorem LandmarksIn.mono {c : Config} {ms ms' : List (Nat × Mk)} {z : List NOpt} {x : Ctx} {p : Option Nat} {n : Node}
    (h : LandmarksIn c ms z x p n) (hs : ∀ y ∈ ms, y ∈ ms') : LandmarksIn c ms' z x p n :=
  fun hp h0 h1 => (h hp h0 h1).mono (fun _ _ hm => hs _ hm) (QM.mono hs)

theorem inMarks_sub {ms ms' : List (Nat × Mk)} (h : ∀ x ∈ ms, x ∈ ms') (q k : Nat) (hm : InMarks ms q k) :
    InMarks ms' q k := h _ hm

theorem lvl_holds {c : Config} {ls : List Int} {f : Str} (h : ∀ l ∈ ls, AtLevel c l f) (g : Str) :
    ∀ m ∈ ls.map Mk.lvl, m.Holds c f g := by
  intro m hm
  obtain ⟨l, hl, rfl⟩ := List.mem_map.1 hm
  exact .inl (h l hl)

theorem lvl_mem {p : Option Nat} {ls : List Int} {r : Nat} {l : Int} (hp : p = some r) (hl : l ∈ ls) :
    (r, Mk.lvl l) ∈ marksAt p (ls.map Mk.lvl) :=
  marksAt_mem hp (List.mem_map.2 ⟨l, hl, rfl⟩)

theorem Spec.LandmarksAll.get {c : Config} {P : Nat → Nat → Prop} {Q : Node → Prop} {k : Nat} {o : Option Str} {u : Bool}
    {z : List NOpt} {tag : Tag} {ns : List Node} {i : Nat}
    (h : ∀ j n, ns[j]? = some n → ∃ d o', Depth c o tag (i + j) n d o' ∧ Landmarks c P Q (k + d) o' (u || nests tag (i + j)) z n) :
    LandmarksAll c P Q k o u z tag i ns := by
  induction ns generalizing i with
  | nil => trivial
  | cons n ns ih =>
    refine ⟨h 0 n rfl, ih fun j m hj => ?_⟩
    have := h (j + 1) m (by simpa using hj)
    rwa [show i + (j + 1) = i + 1 + j by omega] at this

/-! ### Lists -/

theorem isSome_of_ne {α : Type} {o : Option α} (h : o ≠ none) : o.isSome = true := by
  cases o with
  | none => exact absurd rfl h
  | some _ => rfl

/-- The printer asks for a newline before a later item that has to begin a line. -/
theorem askNext_line {z : List NOpt} {c c' : Config} (hv : Variant c c') (hk : KeepsBut z c c') {t : Tag} {prev : Node} {r : R} {st st1 : St}
    {b : Bool} (h : askNext c' t prev r st = .ok (st1, b)) (hb : ItemBreaks c z t false r.node) : b = true := by
  unfold askNext at h
  unfold ItemBreaks at hb
  split at hb
  · rw [← hv.numEq (by decide)] at hb
    simp only [needNewlines, isSome_of_ne hb.2, if_true, needNewline] at h
    cases h; rfl
  · have ho := (hk _ hb.2.2).trans hb.2.1
    simp only [needNewlines, ho, Option.isSome_some, if_true, needNewline] at h
    cases h; rfl
  · obtain ⟨h1, h2, h3, h4, _⟩ := hb
    rw [← hk _ h2] at h1
    rw [← hv.boolEq (by decide)] at h3 h4
    simp only [needNewlines, isSome_of_ne h1, if_true, needNewline, needNewlineField, h3, h4, and_false, false_and,
      if_false] at h
    cases h; rfl
  · rcases hb with ⟨h1, h2, _⟩ | ⟨_, ⟨a, b', h1⟩, h2, h3, h4, h5⟩
    · simp only [Bool.false_eq_true, if_false] at h1
      rw [← hv.numEq (by decide)] at h1
      rw [← hv.boolEq (by decide)] at h2
      simp only [needNewlines, h1, Option.isSome_some, Bool.true_or, if_true, needNewline, h2, if_false, ite_self] at h
      cases h; rfl
    · have e : ∀ o, SwitchedB o → c'.bool o = c.bool o := fun o ho => (hv.boolOff o ho).resolve_right fun h => h4 h.2
      rw [← e _ (by unfold SwitchedB; decide)] at h2 h3
      rw [← hv.numEq (by decide), ← hv.numEq (c := c) (c' := c') (o := .newlineFormatExpListFirst) (by decide)] at h5
      have hn : ((c'.num .newlineFormatExpList).isSome || (c'.num .newlineFormatExpListFirst).isSome) = true := by
        rw [Bool.or_eq_true]
        exact h5.imp isSome_of_ne isSome_of_ne
      simp only [needNewlines, hn, if_true, needNewline, h1, h2, h3, and_self] at h
      cases h; rfl
  · obtain ⟨h1, h2, h3⟩ := hb
    rw [← hv.numEq (by decide)] at h1
    rw [← hv.boolEq (by decide)] at h2
    rcases h3 with h3 | h3 <;>
      (simp only [needNewlines, isSome_of_ne h1, if_true, needNewline, needNewlineSuffix, h3, h2, if_false] at h; cases h; rfl)
  · exact hb.elim

/-- The same for the first item. -/
theorem askFirst_line {z : List NOpt} {c c' : Config} (hv : Variant c c') (hk : KeepsBut z c c') {t : Tag} {pos : Nat} {r : R} {st st1 : St}
    {b : Bool} (h : askFirst c' t pos r st = .ok (st1, b)) (hb : ItemBreaks c z t true r.node) : b = true := by
  unfold askFirst at h
  unfold ItemBreaks at hb
  split at hb
  · cases hb.1
  · cases hb.1
  · obtain ⟨h1, h2, h3, h4, _⟩ := hb
    rw [← hk _ h2] at h1
    rw [← hv.boolEq (by decide)] at h3 h4
    simp only [needNewlines, isSome_of_ne h1, if_true, needFirstNewline, h3, h4, false_and, and_false, or_self, if_false] at h
    cases h; rfl
  · obtain ⟨h1, h2, _⟩ := hb.resolve_right fun h => (by cases h.1)
    simp only [if_true] at h1
    rw [← hv.numEq (by decide)] at h1
    rw [← hv.boolEq (by decide)] at h2
    simp only [needNewlines, h1, Option.isSome_some, Bool.or_true, if_true, needFirstNewline, h2, if_false] at h
    cases h; rfl
  · obtain ⟨h1, h2, h3⟩ := hb
    rw [← hv.numEq (by decide)] at h1
    rw [← hv.boolEq (by decide)] at h2
    rcases h3 with h3 | h3 <;>
      (simp only [needNewlines, isSome_of_ne h1, if_true, needFirstNewline, needNewlineSuffix, h3, h2, if_false] at h
       cases h; rfl)
  · exact hb.elim

theorem itemGap_line {env : Env} (hr : env.posRange = none) {z : List NOpt} {c c' : Config} (hv : Variant c c') (hk : KeepsBut z c c') {t : Tag}
    {prev : Node} {r : R} {gap : Loc} {x : Str} {st st' : St} {b : Bool}
    (h : itemGap env c' t prev r gap x st = .ok (st', b)) :
    st'.ctx = st.ctx ∧ PlainStep env c gap x st.f st'.f ∧ (ItemBreaks c z t false r.node → AtLevel c st.lvl st'.f) := by
  unfold itemGap at h
  simp only [hr, outOfRange, Bool.false_eq_true, if_false, Res.bind_eq_ok, Res.pure_eq] at h
  obtain ⟨⟨st1, nl⟩, h1, st2, h2, h3⟩ := h
  cases h3
  obtain ⟨hs, hn⟩ := askNext_ok h1
  obtain ⟨e, g⟩ := nlW_ok hv h2 (fun hb => hv.nlOpt (hn hb))
  rw [hs.1] at g
  refine ⟨e.trans hs.2, g, fun hl => ?_⟩
  have hnl : nl = true := askNext_line hv hk h1 hl
  subst hnl
  have := nlW_atLevel hv h2
  have hl : st1.lvl = st.lvl := congrArg Prod.fst hs.2
  rwa [hl] at this

theorem askFirst_calm {c : Config} {t : Tag} (ht : t.calmList = true) {pos : Nat} {r : R} {st st1 : St} {b : Bool}
    (h : askFirst c t pos r st = .ok (st1, b)) : b = false := by
  unfold askFirst at h
  split at h
  · cases t <;> simp only [Tag.calmList, Bool.false_eq_true] at ht <;> (simp only [needFirstNewline] at h; cases h; rfl)
  · cases h; rfl

/-- The items of a list, with their marks: `first` tells which of them is the first one of the list. -/
def ItemsHold (c : Config) (ms : List (Nat × Mk)) (z : List NOpt) (x : Ctx) (t : Tag) (first : Nat → Bool) (locs : List Loc) (ns : List Node) : Prop :=
  (∀ (j : Nat) n, ns[j]? = some n → ∃ loc, locs[j]? = some loc ∧ LandmarksIn c ms z x (some loc.r) n) ∧
  (∀ (j : Nat) n (loc : Loc), ns[j]? = some n → locs[j]? = some loc → ItemBreaks c z t (first j) n → CalmAt c loc.r true n →
    (loc.r, Mk.lvl x.1) ∈ ms)

theorem ItemsHold.cons {c : Config} {ms ms1 ms2 : List (Nat × Mk)} {z : List NOpt} {x : Ctx} {t : Tag} {first : Nat → Bool} {l : Loc}
    {ls : List Loc} {n : Node} {ns : List Node} (h1 : ∀ x ∈ ms1, x ∈ ms) (h2 : ∀ x ∈ ms2, x ∈ ms)
    (hn : LandmarksIn c ms1 z x (some l.r) n) (hm : ItemBreaks c z t (first 0) n → CalmAt c l.r true n → (l.r, Mk.lvl x.1) ∈ ms1)
    (h : ItemsHold c ms2 z x t (fun j => first (j + 1)) ls ns) :
    ItemsHold c ms z x t first (l :: ls) (n :: ns) := by
  refine ⟨fun j m hj => ?_, fun j m loc hj hloc hN hc => ?_⟩
  · cases j with
    | zero => cases hj; exact ⟨l, rfl, hn.mono h1⟩
    | succ j =>
      obtain ⟨loc, e, hm⟩ := h.1 j m (by simpa using hj)
      exact ⟨loc, by simpa using e, hm.mono h2⟩
  · cases j with
    | zero => cases hj; cases hloc; exact h1 _ (hm hN hc)
    | succ j => exact h2 _ (h.2 j m loc (by simpa using hj) (by simpa using hloc) hN hc)

theorem ItemsHold.nil {c : Config} {ms : List (Nat × Mk)} {z : List NOpt} {x : Ctx} {t : Tag} {first : Nat → Bool} {locs : List Loc} :
    ItemsHold c ms z x t first locs [] :=
  ⟨fun j n h => (by simp at h), fun j n _ h => by simp at h⟩

/-- The level to mark, if the item has to begin a line. -/
theorem line_levels {c : Config} {f : Str} {l : Int} {Q : Prop} (h : Q → AtLevel c l f) :
    ∃ ls : List Int, (∀ l ∈ ls, AtLevel c l f) ∧ (Q → l ∈ ls) := by
  by_cases hN : Q
  · exact ⟨[l], fun l hl => (by cases List.mem_singleton.1 hl; exact h hN), fun _ => by simp⟩
  · exact ⟨[], fun l hl => (by cases hl), fun h => absurd h hN⟩

theorem listRest_marks {env : Env} (hr : env.posRange = none) {z : List NOpt} {c c' : Config} (hv : Variant c c') (hk : KeepsBut z c c') (t : Tag) :
    ∀ (locs : List Loc) (rs : List R) (ks : List (List Item)) (prev : Node) (ind : Bool) (st st' : St) (b : Bool),
    KidsB env c rs ks → rs.length ≤ locs.length → FreshTables c st → listRest env c' t prev (locs.zip rs) ind st = .ok (st', b) →
    st'.ctx = st.ctx ∧ ∃ ms, LEmits False env c none (plainIs locs ((rs.map (·.node.tag)).zip ks)) ms st.f st'.f ∧
      ItemsHold c ms z st.ctx t (fun _ => false) locs (rs.map (·.node)) := by
  intro locs
  induction locs with
  | nil =>
    intro rs ks prev ind st st' b hK hlen hfr h
    cases rs with
    | cons => simp at hlen
    | nil =>
      cases h
      exact ⟨rfl, [], .nil, .nil⟩
  | cons l ls ih =>
    intro rs ks prev ind st st' b hK hlen hfr h
    cases hK with
    | nil =>
      cases h
      exact ⟨rfl, [], .nil, .nil⟩
    | @cons r is rs ks hr1 hi hT hK =>
      simp only [List.zip_cons_cons, listRest, Res.bind_eq_ok] at h
      obtain ⟨⟨st1, nl⟩, h1, st2, h2, h3⟩ := h
      obtain ⟨e1, g1, a1⟩ := itemGap_line hr hv hk h1
      obtain ⟨lv, hlv, hN⟩ := line_levels a1
      have hfr1 : FreshTables c st1 := hfr.same fun hf => itemGap_tables (hv.force hf) hT h1
      have hfr2 : FreshTables c st2 := hfr1.same fun hf => hT.w _ _ _ (hv.force hf) h2
      obtain ⟨e2, ms1, g2, b2, d2⟩ := hr1 z _ _ _ (some l.r) lv hv hk hfr1 h2 hlv
      obtain ⟨e3, ms2, g3, i3⟩ := ih _ _ _ _ _ _ _ hK (by simpa using hlen) hfr2 h3
      refine ⟨e3.trans (e2.trans e1), ms1 ++ ms2, ?_, ?_⟩
      · exact .gap g1.stepAt (.inr (hi.append (plainIs_head ..)).quiet) (g2.append g3 (plainIs_head ..))
      · rw [e2, e1] at i3
        rw [e1] at b2
        exact i3.cons (fun x hx => by simp [hx]) (fun x hx => by simp [hx]) b2
          (fun hn hc => d2 _ rfl true hc _ (hN hn) fun _ => by rw [e1])

theorem nlW_first {env : Env} {z : List NOpt} {c c' : Config} (hv : Variant c c') (hk : KeepsBut z c c') {t : Tag} {pos : Nat} {r : R}
    {loc : Loc} {x : Str} {st st1 st2 : St} {b : Bool} (h1 : askFirst c' t pos r st = .ok (st1, b))
    (h2 : nlW env c' b loc x st1 = .ok st2) (hb : ItemBreaks c z t true r.node) : AtLevel c st.lvl st2.f := by
  have hn := askFirst_line hv hk h1 hb
  subst hn
  have := nlW_atLevel hv h2
  rwa [show st1.lvl = st.lvl from congrArg Prod.fst (askFirst_ok h1).1.2] at this

theorem plainList_marks {env : Env} (hr : env.posRange = none) {z : List NOpt} {c c' : Config} (hv : Variant c c') (hk : KeepsBut z c c') (t : Tag)
    (pos : Nat) (locs : List Loc) (rs : List R) (ks : List (List Item)) (st st' : St) (b : Bool) (hK : KidsB env c rs ks)
    (hlen : rs.length ≤ locs.length) (hfr : FreshTables c st) (h : plainList env c' t pos (locs.zip rs) st = .ok (st', b)) (p : Option Nat)
    (lv : List Int) (hlv : ∀ l ∈ lv, AtLevel c l st.f) :
    st'.ctx = st.ctx ∧ ∃ ms, LEmits False env c p (plainIs0 locs ((rs.map (·.node.tag)).zip ks)) ms st.f st'.f ∧
      ItemsHold c ms z st.ctx t (· == 0) locs (rs.map (·.node)) ∧
      (t.calmList = true → ∀ r ls n ns, locs = ⟨r, r⟩ :: ls → rs.map (·.node) = n :: ns → ∀ o, CalmAt c r o n →
        ∀ l ∈ lv, (o = true → l = st.ctx.1) → (r, Mk.lvl l) ∈ ms) := by
  match locs, hK with
  | [], .nil =>
    cases h
    exact ⟨rfl, [], .nil, .nil, fun _ r ls n ns _ h => by simp at h⟩
  | _ :: _, .nil =>
    cases h
    exact ⟨rfl, [], .nil, .nil, fun _ r ls n ns _ h => by simp at h⟩
  | [], .cons .. => simp at hlen
  | l :: ls, .cons (r := r) hr1 hi hT hK =>
    simp only [List.zip_cons_cons, plainList, Res.bind_eq_ok] at h
    obtain ⟨⟨st1, nl⟩, h1, st2, h2, st3, h3, h4⟩ := h
    obtain ⟨hs, hn⟩ := askFirst_ok h1
    obtain ⟨e2, g2⟩ := nlW_ok hv h2 (fun hb => hv.nlOpt (hn hb))
    rw [hs.1] at g2
    have hls : ∃ lw : List Int, (∀ x ∈ lw, AtLevel c x st2.f) ∧
        (t.calmList = true → l.l = l.r → ∀ x ∈ lv, x ∈ lw) := by
      by_cases hc : t.calmList = true ∧ l.l = l.r
      · refine ⟨lv, fun x hx => ?_, fun _ _ x hx => hx⟩
        have hb := askFirst_calm hc.1 h1
        subst hb
        have hl : l = ⟨l.r, l.r⟩ := by
          cases l; simpa using hc.2
        rw [hl] at h2
        rw [nlW_same hr h2, hs.1]
        exact hlv x hx
      · exact ⟨[], fun x hx => (by cases hx), fun h1 h2 => absurd ⟨h1, h2⟩ hc⟩
    obtain ⟨lw, hlw, hcalm⟩ := hls
    obtain ⟨lx, hlx, hN⟩ := line_levels (nlW_first hv hk h1 h2)
    have hfr2 : FreshTables c st2 := hfr.same fun hf => .trans (askFirst_tables (hv.force hf) hT h1) (nlW_tables h2)
    have hfr3 : FreshTables c st3 := hfr2.same fun hf => hT.w _ _ _ (hv.force hf) h3
    obtain ⟨e3, ms1, g3, b3, d3⟩ := hr1 z _ _ _ (some l.r) (lw ++ lx) hv hk hfr2 h3
      (fun x hx => (List.mem_append.1 hx).elim (hlw x) (hlx x))
    obtain ⟨e4, ms2, g4, i4⟩ := listRest_marks hr hv hk t _ _ _ _ _ _ _ _ hK (by simpa using hlen) hfr3 h4
    have l2 : st2.ctx = st.ctx := e2.trans hs.2
    rw [l2] at b3
    rw [e3, l2] at i4
    refine ⟨e4.trans (e3.trans (e2.trans hs.2)), ms1 ++ ms2, .gap g2.stepAt (.inr (hi.append (plainIs_head ..)).quiet) (g3.append g4 (plainIs_head ..)), ?_, ?_⟩
    · exact i4.cons (first := (· == 0)) (fun x hx => by simp [hx]) (fun x hx => by simp [hx]) b3
        (fun hn hc => d3 _ rfl true hc _ (List.mem_append_right _ (hN hn)) fun _ => by rw [l2])
    · intro ht r' ls' n ns he hn o hc x hx ho
      cases he
      simp only [List.map_cons, List.cons.injEq] at hn
      have := d3 r' rfl o (by rw [hn.1]; exact hc) x (List.mem_append_left _ (hcalm ht rfl x hx))
        (fun h => by rw [l2]; exact ho h)
      simp [this]

/-- The places before the items of a list with separators. -/
def preLocs : List Loc → List Loc
  | l :: _ :: ls => l :: preLocs ls
  | _ => []

theorem preLocs_get : ∀ {locs : List Loc} {j : Nat}, 2 * j + 1 < locs.length → (preLocs locs)[j]? = locs[2 * j]?
  | [], _, h => by simp at h
  | [_], _, h => by simp at h
  | _ :: _ :: _, 0, _ => rfl
  | _ :: _ :: ls, j + 1, h => by
    have := preLocs_get (locs := ls) (j := j) (by simp at h; omega)
    simpa [preLocs, Nat.mul_succ] using this

theorem sepRest_marks {env : Env} (hr : env.posRange = none) {z : List NOpt} {c c' : Config} (hv : Variant c c') (hk : KeepsBut z c c') {t : Tag}
    {ss : List Str} (ht : t.seps = some ss) (pos : Nat) :
    ∀ (seps : List Str) (locs : List Loc) (rs : List R) (ks : List (List Item)) (last : SepItem) (ind : Bool)
      (st st' : St) (b : Bool), KidsB env c rs ks → 2 * rs.length ≤ locs.length → rs.length ≤ seps.length → FreshTables c st →
    sepRest env c' t pos last (sepItems locs rs seps) ind st = .ok (st', b) →
    st'.ctx = st.ctx ∧ ∃ ms, LEmits False env c none
      (if (sepIs c t (elementHint t) locs ks seps).isEmpty
        then [.trail t.isFields last.sep ((separator c t).getD last.sep)]
        else .lit last.sep ((separator c t).getD last.sep) :: sepIs c t (elementHint t) locs ks seps)
      ms st.f st'.f ∧ ItemsHold c ms z st.ctx t (fun _ => false) (preLocs locs) (rs.map (·.node)) := by
  intro seps locs rs
  induction rs generalizing seps locs with
  | nil =>
    intro ks last ind st st' b hK _ _ _ h
    have e1 : sepItems locs [] seps = [] := by
      match locs with
      | [] => rfl
      | [_] => rfl
      | _ :: _ :: _ => rfl
    cases hK
    have e2 : sepIs c t (elementHint t) locs [] seps = [] := by
      match locs with
      | [] => rfl
      | [_] => rfl
      | _ :: _ :: _ => rfl
    rw [e1] at h
    rw [e2]
    have hok := trailingSeparator_ok hv ht pos st last.sep
    simp only [sepRest] at h
    simp only [List.isEmpty_nil, if_true]
    split at h
    · next hc =>
      cases h
      refine ⟨rfl, [], .trail _ hok ?_, .nil⟩
      rw [decide_eq_true hc]
      simp only [if_true, St.put, getSep, separator_variant hv]
      exact .nil
    · next hc =>
      cases h
      refine ⟨rfl, [], .trail _ hok ?_, .nil⟩
      rw [decide_eq_false hc]
      exact .nil
  | cons r rs ih =>
    intro ks last ind st st' b hK h1 h2 hfr h
    match locs, seps, hK with
    | [], _, _ => simp at h1
    | [_], _, _ => simp at h1; omega
    | _ :: _ :: _, [], _ => simp at h2
    | pre :: post :: ls, s :: seps, .cons (is := k) (ks := ks) hr1 hi hT hK =>
      simp only [sepItems, sepRest, Res.bind_eq_ok] at h
      obtain ⟨⟨st1, nl⟩, h1', st2, h2', st3, h3, h4⟩ := h
      obtain ⟨e1, g1, a1⟩ := itemGap_line hr hv hk h1'
      obtain ⟨lv, hlv, hN⟩ := line_levels a1
      have hfr1 : FreshTables c st1 := hfr.same fun hf => SameTables.trans (b := st.put (getSep c' t last)) rfl (itemGap_tables (hv.force hf) hT h1')
      have hfr3 : FreshTables c st3 := hfr1.same fun hf => .trans (hT.w _ _ _ (hv.force hf) h2') (hintW_tables h3)
      obtain ⟨e2, ms1, g2, b2, d2⟩ := hr1 z _ _ _ (some pre.r) lv hv hk hfr1 h2' hlv
      obtain ⟨e3, g3⟩ := hintW_ok hv h3
      obtain ⟨e4, ms2, g4, k4⟩ := ih seps ls ks _ _ _ _ _ hK (by simp at h1; omega) (by simpa using h2) hfr3 h4
      have l1 : st1.ctx = st.ctx := e1
      rw [l1] at b2
      rw [e3, e2, l1] at k4
      refine ⟨e4.trans (e3.trans (e2.trans (e1.trans rfl))), ms1 ++ ms2, ?_,
        k4.cons (fun x hx => by simp [hx]) (fun x hx => by simp [hx]) b2
          (fun hn hc => d2 _ rfl true hc _ (hN hn) fun _ => by rw [l1])⟩
      have hne : (sepIs c t (elementHint t) (pre :: post :: ls) (k :: ks) (s :: seps)).isEmpty = false := rfl
      simp only [hne]
      refine .lit0 ?_
      simp only [sepIs]
      have g1' : PlainStep env c pre (elementHint t) (st.f ++ (separator c t).getD last.sep) st1.f := by
        simpa only [St.put, getSep, separator_variant hv] using g1
      exact .gap g1'.stepAt (.inr (hi.append (js := .gap post [] :: _) trivial).quiet) (g2.append (.gap g3.stepAt (.inr (hintW_same hr h3)) (LEmits.weaken g4)) trivial)

theorem sepList_marks {env : Env} (hr : env.posRange = none) {z : List NOpt} {c c' : Config} (hv : Variant c c') (hk : KeepsBut z c c') {t : Tag}
    {ss : List Str} (ht : t.seps = some ss) (pos : Nat) (seps : List Str) (locs : List Loc) (rs : List R)
    (ks : List (List Item)) (st st' : St) (b : Bool) (hK : KidsB env c rs ks) (hl : 2 * rs.length ≤ locs.length)
    (hs : rs.length ≤ seps.length) (hfr : FreshTables c st) (h : sepList env c' t pos (sepItems locs rs seps) st = .ok (st', b)) (p : Option Nat)
    (lv : List Int) (hlv : ∀ l ∈ lv, AtLevel c l st.f) :
    st'.ctx = st.ctx ∧ ∃ ms, LEmits False env c p (sepIs c t [] locs ks seps) ms st.f st'.f ∧
      ItemsHold c ms z st.ctx t (· == 0) (preLocs locs) (rs.map (·.node)) ∧
      (t.calmList = true → ∀ r ls n ns, locs = ⟨r, r⟩ :: ls → rs.map (·.node) = n :: ns → ∀ o, CalmAt c r o n →
        ∀ l ∈ lv, (o = true → l = st.ctx.1) → (r, Mk.lvl l) ∈ ms) := by
  match rs, locs, seps, hK with
  | [], [], _, .nil => cases h; exact ⟨rfl, [], .nil, .nil, fun _ r ls n ns _ h => by simp at h⟩
  | [], [_], _, .nil => cases h; exact ⟨rfl, [], .nil, .nil, fun _ r ls n ns _ h => by simp at h⟩
  | [], _ :: _ :: _, _, .nil => cases h; exact ⟨rfl, [], .nil, .nil, fun _ r ls n ns _ h => by simp at h⟩
  | _ :: _, [], _, _ => simp at hl
  | _ :: _, [_], _, _ => simp at hl; omega
  | _ :: _, _ :: _ :: _, [], _ => simp at hs
  | r :: rs, pre :: post :: ls, s :: seps, .cons (is := k) (ks := ks) hr1 hi hT hK =>
    simp only [sepItems, sepList, Res.bind_eq_ok] at h
    obtain ⟨⟨st1, nl⟩, h1, st2, h2, st3, h3, st4, h4, h5⟩ := h
    obtain ⟨hs1, hn⟩ := askFirst_ok h1
    obtain ⟨e2, g2⟩ := nlW_ok hv h2 (fun hb => hv.nlOpt (hn hb))
    rw [hs1.1] at g2
    have hls : ∃ lw : List Int, (∀ x ∈ lw, AtLevel c x st2.f) ∧
        (t.calmList = true → pre.l = pre.r → ∀ x ∈ lv, x ∈ lw) := by
      by_cases hc : t.calmList = true ∧ pre.l = pre.r
      · refine ⟨lv, fun x hx => ?_, fun _ _ x hx => hx⟩
        have hb := askFirst_calm hc.1 h1
        subst hb
        have hl : pre = ⟨pre.r, pre.r⟩ := by
          cases pre; simpa using hc.2
        rw [hl] at h2
        rw [nlW_same hr h2, hs1.1]
        exact hlv x hx
      · exact ⟨[], fun x hx => (by cases hx), fun h1 h2 => absurd ⟨h1, h2⟩ hc⟩
    obtain ⟨lw, hlw, hcalm⟩ := hls
    obtain ⟨lx, hlx, hN⟩ := line_levels (nlW_first hv hk h1 h2)
    have hfr2 : FreshTables c st2 := hfr.same fun hf => .trans (askFirst_tables (hv.force hf) hT h1) (nlW_tables h2)
    have hfr4 : FreshTables c st4 := hfr2.same fun hf => .trans (hT.w _ _ _ (hv.force hf) h3) (hintW_tables h4)
    obtain ⟨e3, ms1, g3, b3, d3⟩ := hr1 z _ _ _ (some pre.r) (lw ++ lx) hv hk hfr2 h3
      (fun x hx => (List.mem_append.1 hx).elim (hlw x) (hlx x))
    obtain ⟨e4, g4⟩ := hintW_ok hv h4
    obtain ⟨e5, ms2, g5, k5⟩ := sepRest_marks hr hv hk ht pos seps ls rs ks _ _ _ _ _ hK (by simp at hl; omega)
      (by simpa using hs) hfr4 h5
    have l2 : st2.ctx = st.ctx := e2.trans hs1.2
    rw [l2] at b3
    rw [e4, e3, l2] at k5
    refine ⟨e5.trans (e4.trans (e3.trans (e2.trans hs1.2))), ms1 ++ ms2, ?_,
      k5.cons (first := (· == 0)) (fun x hx => by simp [hx]) (fun x hx => by simp [hx]) b3
        (fun hn hc => d3 _ rfl true hc _ (List.mem_append_right _ (hN hn)) fun _ => by rw [l2]), ?_⟩
    · simp only [sepIs]
      exact .gap g2.stepAt (.inr (hi.append (js := .gap post [] :: _) trivial).quiet) (g3.append (.gap g4.stepAt (.inr (hintW_same hr h4)) (LEmits.weaken g5)) trivial)
    · intro ht' r' ls' n ns he hn o hc x hx ho
      cases he
      simp only [List.map_cons, List.cons.injEq] at hn
      have := d3 r' rfl o (by rw [hn.1]; exact hc) x (List.mem_append_left _ (hcalm ht' rfl x hx))
        (fun h => by rw [l2]; exact ho h)
      simp [this]

/-! ### Templates -/

/-- What holds after an argument has been written: `p` is the position if it is known, `ls` the levels whose
indentation ends the text before. -/
def ElHold (c : Config) (ms : List (Nat × Mk)) (z : List NOpt) (ns : List Node) (x : Ctx) (p : Option Nat) (ls : List Int) : El → Prop
  | .lit _ => ∀ r, p = some r → ∀ l ∈ ls, (r, Mk.lvl l) ∈ ms
  | .kid i => ∃ n, ns[i]? = some n ∧ LandmarksIn c ms z x p n ∧
      ∀ r, p = some r → ∀ o, CalmAt c r o n → ∀ l ∈ ls, (o = true → l = x.1) → (r, Mk.lvl l) ∈ ms
  | _ => True

/-- The position after an argument. -/
def El.pos (locs : List Loc) (p : Option Nat) : El → Option Nat
  | .lit _ | .kid _ => none
  | .hint i _ | .nl _ i _ => some (locAt locs i).r
  | _ => p

/-- The levels after an argument. -/
def El.levels (x : Ctx) (ls : List Int) : El → List Int
  | .lit _ | .kid _ | .hint _ _ => []
  | .nl b _ _ => if b then [x.1] else []
  | _ => ls

/-- What holds after a sequence of arguments. -/
def ElsHold (c : Config) (ms : List (Nat × Mk)) (z : List NOpt) (locs : List Loc) (ns : List Node) :
    Ctx → Option Nat → List Int → List El → Prop
  | _, _, _, [] => True
  | x, p, ls, e :: es => ElHold c ms z ns x p ls e ∧ ElsHold c ms z locs ns (e.eff x) (e.pos locs p) (e.levels x ls) es

/-- The child may be indented by `test_indent`. -/
def MayIndent (c : Config) (kid : Tag) : Prop :=
  ((∃ s, kid = .expList s) ∧ c.bool .indentExpList = some true) ∨
    (kid = .varSuffixList ∧ c.bool .indentVarSuffix = some true) ∨ kid.isFields = true

/-- What holds after a template. -/
def FmsHold (c : Config) (ms : List (Nat × Mk)) (z : List NOpt) (locs : List Loc) (ns : List Node) :
    Ctx → Option Nat → List Int → List Fm → Prop
  | _, _, _, [] => True
  | x, p, ls, .el e :: es => ElHold c ms z ns x p ls e ∧ FmsHold c ms z locs ns (e.eff x) (e.pos locs p) (e.levels x ls) es
  | x, p, ls, .ind k _ _ body :: es =>
    ((∃ n, ns[k]? = some n ∧ MayIndent c n.tag ∧ ElsHold c ms z locs ns (El.inc.eff x) p ls body) ∨
      (∀ n, ns[k]? = some n → ¬ HasIndent c n) ∧ ElsHold c ms z locs ns x p ls body) ∧ FmsHold c ms z locs ns x none [] es

theorem ElHold.mono {c : Config} {ms ms' : List (Nat × Mk)} {z : List NOpt} (h : ∀ x ∈ ms, x ∈ ms') {ns : List Node} {x : Ctx} {p : Option Nat}
    {ls : List Int} {e : El} (he : ElHold c ms z ns x p ls e) : ElHold c ms' z ns x p ls e := by
  cases e with
  | lit s => exact fun r hr l hl => h _ (he r hr l hl)
  | kid i =>
    obtain ⟨n, hn, h1, h2⟩ := he
    exact ⟨n, hn, h1.mono h, fun r hr o hc l hl ho => h _ (h2 r hr o hc l hl ho)⟩
  | hint => trivial
  | nl => trivial
  | inc => trivial
  | dec => trivial
  | incF => trivial
  | decF => trivial

theorem ElsHold.mono {c : Config} {ms ms' : List (Nat × Mk)} {z : List NOpt} (h : ∀ x ∈ ms, x ∈ ms') {locs : List Loc} {ns : List Node} :
    ∀ {es : List El} {x : Ctx} {p : Option Nat} {ls : List Int}, ElsHold c ms z locs ns x p ls es →
      ElsHold c ms' z locs ns x p ls es
  | [], _, _, _, _ => trivial
  | _ :: _, _, _, _, he => ⟨he.1.mono h, he.2.mono h⟩

theorem FmsHold.mono {c : Config} {ms ms' : List (Nat × Mk)} {z : List NOpt} (h : ∀ x ∈ ms, x ∈ ms') {locs : List Loc} {ns : List Node} :
    ∀ {es : List Fm} {x : Ctx} {p : Option Nat} {ls : List Int}, FmsHold c ms z locs ns x p ls es →
      FmsHold c ms' z locs ns x p ls es
  | [], _, _, _, _ => trivial
  | .el _ :: _, _, _, _, he => ⟨he.1.mono h, FmsHold.mono h he.2⟩
  | .ind .. :: _, _, _, _, he => ⟨he.1.imp (fun ⟨n, h1, h2, h3⟩ => ⟨n, h1, h2, h3.mono h⟩) (fun ⟨h1, h2⟩ => ⟨h1, h2.mono h⟩), FmsHold.mono h he.2⟩

theorem KidsB.get {env : Env} {c : Config} {rs : List R} {ks : List (List Item)} (h : KidsB env c rs ks) {i : Nat} {r : R}
    (hi : rs[i]? = some r) : WB env c r.w (ks[i]?.getD []) r.node := by
  induction h generalizing i with
  | nil => simp at hi
  | cons hr _ _ _ ih =>
    cases i with
    | zero => cases hi; exact hr
    | succ i => exact ih (by simpa using hi)

theorem runEls_marks {env : Env} {z : List NOpt} {c c' : Config} (hv : Variant c c') (hk : KeepsBut z c c') {locs : List Loc} {rs : List R}
    {ks : List (List Item)} (hK : KidsB env c rs ks) : ∀ {es : List El}, (∀ e ∈ es, e.ok c') → ∀ {st st' : St}
    (p : Option Nat) (ls : List Int), (∀ l ∈ ls, AtLevel c l st.f) → FreshTables c st → runAll (runEl env locs rs c') es st = .ok st' →
    st'.ctx = es.foldl (fun x e => e.eff x) st.ctx ∧ ∃ ms,
      LEmits False env c p ((es.flatMap El.slots).flatMap (slotItems locs ks)) ms st.f st'.f ∧
      ElsHold c ms z locs (rs.map (·.node)) st.ctx p ls es := by
  intro es
  induction es with
  | nil => intro _ st st' p ls _ _ h; cases h; exact ⟨rfl, [], .nil, trivial⟩
  | cons e es ih =>
    intro he st st' p ls hls hfr h
    simp only [runAll, Res.bind_eq_ok] at h
    obtain ⟨st1, h1, h2⟩ := h
    have hfr1 : FreshTables c st1 := hfr.same fun hf => runEl_tables (hv.force hf) hK.tables h1
    have ih := fun p ls hls => ih (fun e h => he e (by simp [h])) (st := st1) (st' := st') p ls hls hfr1
    have quiet : ∀ x : Ctx, st1.ctx = x → st1.f = st.f → e.slots = [] → e.eff st.ctx = x → e.pos locs p = p →
        e.levels st.ctx ls = ls → (∀ ms, ElHold c ms z (rs.map (·.node)) st.ctx p ls e) →
        st'.ctx = (e :: es).foldl (fun x e => e.eff x) st.ctx ∧ ∃ ms,
          LEmits False env c p (((e :: es).flatMap El.slots).flatMap (slotItems locs ks)) ms st.f st'.f ∧
          ElsHold c ms z locs (rs.map (·.node)) st.ctx p ls (e :: es) := by
      rintro x rfl hf hsl hx hp hl hh
      obtain ⟨a2, ms, b2, d2⟩ := ih p ls (by rw [hf]; exact hls) h2
      refine ⟨?_, ms, ?_, hh ms, ?_⟩
      · rw [a2]; simp only [List.foldl_cons, hx]
      · rw [hf] at b2
        simpa [hsl] using b2
      · rw [hx, hp, hl]; exact d2
    cases e with
    | lit s =>
      cases h1
      obtain ⟨a2, ms, b2, d2⟩ := ih none [] (fun _ h => by cases h) h2
      refine ⟨a2, marksAt p (ls.map .lvl) ++ ms, .lit _ (lvl_holds hls _) b2, ?_, d2.mono fun x hx => by simp [hx]⟩
      intro r hr l hl
      exact List.mem_append_left _ (lvl_mem hr hl)
    | hint i y =>
      obtain ⟨a, b⟩ := hintW_ok hv h1
      obtain ⟨a2, ms, b2, d2⟩ := ih (some (locAt locs i).r) [] (fun _ h => by cases h) h2
      rw [a] at a2 d2
      exact ⟨a2, ms, .gap b.stepAt (.inr (slots_head hK.heads _).quiet) b2, trivial, d2⟩
    | nl b i y =>
      obtain ⟨a, g⟩ := nlW_ok hv h1 (fun hb => hv.nlOpt ((he (.nl b i y) (by simp)) hb))
      have hlev : ∀ l ∈ (El.nl b i y).levels st.ctx ls, AtLevel c l st1.f := by
        intro l hl
        cases b with
        | false => cases hl
        | true =>
          cases List.mem_singleton.1 hl
          exact nlW_atLevel hv h1
      obtain ⟨a2, ms, b2, d2⟩ := ih (some (locAt locs i).r) _ hlev h2
      rw [a] at a2 d2
      exact ⟨a2, ms, .gap g.stepAt (.inr (slots_head hK.heads _).quiet) b2, trivial, d2⟩
    | kid i =>
      change kidW rs i c' st = .ok st1 at h1
      unfold kidW at h1
      cases hri : rs[i]? with
      | none => rw [hri] at h1; cases h1
      | some r =>
        rw [hri] at h1
        obtain ⟨a, ms1, g, b, d⟩ := hK.get hri z c' st st1 p ls hv hk hfr h1 hls
        obtain ⟨a2, ms, b2, d2⟩ := ih none [] (fun _ h => by cases h) h2
        rw [a] at a2 d2
        refine ⟨a2, ms1 ++ ms, ?_, ?_, d2.mono fun x hx => by simp [hx]⟩
        · have := g.append b2 (slots_head hK.heads _)
          simpa [El.slots, slotItems] using this
        · exact ⟨r.node, by rw [List.getElem?_map, hri]; rfl, b.mono (fun x hx => by simp [hx]),
            fun r hr o hc l hl ho => List.mem_append_left _ (d r hr o hc l hl ho)⟩
    | inc =>
      cases h1
      exact quiet _ rfl rfl rfl (by simp [St.ctx, incIndent, El.eff]) rfl rfl (fun _ => trivial)
    | dec =>
      cases h1
      exact quiet _ rfl rfl rfl (by simp [St.ctx, decIndent, El.eff]) rfl rfl (fun _ => trivial)
    | incF => cases h1; exact quiet _ rfl rfl rfl rfl rfl rfl (fun _ => trivial)
    | decF => cases h1; exact quiet _ rfl rfl rfl rfl rfl rfl (fun _ => trivial)

theorem testIndent_may {env : Env} {c c' : Config} (hv : Variant c c') {r : R} {loc : Loc} {x : Str} {st st1 : St}
    (h : testIndent env c' r loc x st = .ok (st1, true)) : MayIndent c r.node.tag := by
  unfold testIndent at h
  rw [hv.boolEq (o := .indentVarSuffix) (by decide), hv.boolEq (o := .indentExpList) (by decide)] at h
  simp only at h
  split at h
  · next ht =>
    rw [ht]
    refine .inr (.inl ⟨rfl, ?_⟩)
    split at h
    · cases h
    · split at h
      · cases h
      · cases h
      · split at h
        · assumption
        · cases h
  · next s ht =>
    rw [ht]
    refine .inl ⟨⟨_, rfl⟩, ?_⟩
    split at h
    · cases h
    · split at h
      · simp only [Res.pure_eq, Res.ok.injEq, Prod.mk.injEq, decide_eq_true_eq] at h
        exact h.2.1
      · split at h
        · cases h
        · cases h
        · split at h
          · assumption
          · cases h
  · next ht => exact .inr (.inr (by rw [ht]; rfl))
  · cases h

/-! ### Indented lists -/

theorem itemGap_ind {env : Env} (hr : env.posRange = none) {z : List NOpt} {c c' : Config} (hv : Variant c c') (hk : KeepsBut z c c') {t : Tag}
    {prev : Node} {r : R} {gap : Loc} {x : Str} {st st' : St} {b : Bool}
    (h : itemGap env c' t prev r gap x st = .ok (st', b)) (hb : ItemBreaks c z t false r.node) : b = true := by
  unfold itemGap at h
  simp only [hr, outOfRange, Bool.false_eq_true, if_false, Res.bind_eq_ok, Res.pure_eq] at h
  obtain ⟨⟨st1, nl⟩, h1, st2, h2, h3⟩ := h
  cases h3
  exact askNext_line hv hk h1 hb

theorem listRest_ind {env : Env} (hr : env.posRange = none) {z : List NOpt} {c c' : Config} (hv : Variant c c') (hk : KeepsBut z c c') {t : Tag} :
    ∀ {locs : List Loc} {rs : List R} {prev : Node} {ind : Bool} {st st' : St} {b : Bool},
    listRest env c' t prev (locs.zip rs) ind st = .ok (st', b) → rs.length ≤ locs.length →
    (ind = true ∨ ∃ (j : Nat) (r : R), rs[j]? = some r ∧ ItemBreaks c z t false r.node) → b = true := by
  intro locs
  induction locs with
  | nil =>
    intro rs prev ind st st' b h hlen hx
    cases rs with
    | cons => simp at hlen
    | nil =>
      cases h
      rcases hx with hx | ⟨j, r, hj, _⟩
      · exact hx
      · simp at hj
  | cons l ls ih =>
    intro rs prev ind st st' b h hlen hx
    cases rs with
    | nil =>
      cases h
      rcases hx with hx | ⟨j, r, hj, _⟩
      · exact hx
      · simp at hj
    | cons r rs =>
      simp only [List.zip_cons_cons, listRest, Res.bind_eq_ok] at h
      obtain ⟨⟨st1, nl⟩, h1, st2, h2, h3⟩ := h
      refine ih h3 (by simpa using hlen) ?_
      rcases hx with hx | ⟨j, r', hj, hb⟩
      · simp [hx]
      · cases j with
        | zero => cases hj; simp [itemGap_ind hr hv hk h1 hb]
        | succ j => exact .inr ⟨j, r', by simpa using hj, hb⟩

theorem plainList_ind {env : Env} (hr : env.posRange = none) {z : List NOpt} {c c' : Config} (hv : Variant c c') (hk : KeepsBut z c c') {t : Tag}
    {pos : Nat} {locs : List Loc} {rs : List R} {st st' : St} {b : Bool} (hlen : rs.length ≤ locs.length)
    (h : plainList env c' t pos (locs.zip rs) st = .ok (st', b)) {j : Nat} {r : R} (hj : rs[j]? = some r)
    (hb : ItemBreaks c z t (j == 0) r.node) : b = true := by
  match rs, locs with
  | [], _ => simp at hj
  | _ :: _, [] => simp at hlen
  | r1 :: rs, l :: ls =>
    simp only [List.zip_cons_cons, plainList, Res.bind_eq_ok] at h
    obtain ⟨⟨st1, nl⟩, h1, st2, h2, st3, h3, h4⟩ := h
    refine listRest_ind hr hv hk h4 (by simpa using hlen) ?_
    cases j with
    | zero => cases hj; exact .inl (askFirst_line hv hk h1 hb)
    | succ j => exact .inr ⟨j, r, by simpa using hj, hb⟩

theorem sepRest_ind {env : Env} (hr : env.posRange = none) {z : List NOpt} {c c' : Config} (hv : Variant c c') (hk : KeepsBut z c c') {t : Tag}
    {pos : Nat} : ∀ {rs : List R} {seps : List Str} {locs : List Loc} {last : SepItem} {ind : Bool} {st st' : St} {b : Bool},
    sepRest env c' t pos last (sepItems locs rs seps) ind st = .ok (st', b) → 2 * rs.length ≤ locs.length →
    rs.length ≤ seps.length → (ind = true ∨ ∃ (j : Nat) (r : R), rs[j]? = some r ∧ ItemBreaks c z t false r.node) →
    b = true := by
  intro rs
  induction rs with
  | nil =>
    intro seps locs last ind st st' b h _ _ hx
    have e1 : sepItems locs [] seps = [] := by
      match locs with
      | [] => rfl
      | [_] => rfl
      | _ :: _ :: _ => rfl
    rw [e1] at h
    have hi : ind = true := by
      rcases hx with hx | ⟨j, r, hj, _⟩
      · exact hx
      · simp at hj
    simp only [sepRest] at h
    split at h <;> (cases h; exact hi)
  | cons r rs ih =>
    intro seps locs last ind st st' b h h1 h2 hx
    match locs, seps with
    | [], _ => simp at h1
    | [_], _ => simp at h1; omega
    | _ :: _ :: _, [] => simp at h2
    | pre :: post :: ls, s :: seps =>
      simp only [sepItems, sepRest, Res.bind_eq_ok] at h
      obtain ⟨⟨st1, nl⟩, h1', st2, h2', st3, h3, h4⟩ := h
      refine ih h4 (by simp at h1; omega) (by simpa using h2) ?_
      rcases hx with hx | ⟨j, r', hj, hb⟩
      · simp [hx]
      · cases j with
        | zero => cases hj; simp [itemGap_ind hr hv hk h1' hb]
        | succ j => exact .inr ⟨j, r', by simpa using hj, hb⟩

theorem sepList_ind {env : Env} (hr : env.posRange = none) {z : List NOpt} {c c' : Config} (hv : Variant c c') (hk : KeepsBut z c c') {t : Tag}
    {pos : Nat} {seps : List Str} {locs : List Loc} {rs : List R} {st st' : St} {b : Bool} (hl : 2 * rs.length ≤ locs.length)
    (hs : rs.length ≤ seps.length) (h : sepList env c' t pos (sepItems locs rs seps) st = .ok (st', b)) {j : Nat} {r : R}
    (hj : rs[j]? = some r) (hb : ItemBreaks c z t (j == 0) r.node) : b = true := by
  match rs, locs, seps with
  | [], _, _ => simp at hj
  | _ :: _, [], _ => simp at hl
  | _ :: _, [_], _ => simp at hl; omega
  | _ :: _, _ :: _ :: _, [] => simp at hs
  | r1 :: rs, pre :: post :: ls, s :: seps =>
    simp only [sepItems, sepList, Res.bind_eq_ok] at h
    obtain ⟨⟨st1, nl⟩, h1, st2, h2, st3, h3, st4, h4, h5⟩ := h
    refine sepRest_ind hr hv hk h5 (by simp at hl; omega) (by simpa using hs) ?_
    cases j with
    | zero => cases hj; exact .inl (askFirst_line hv hk h1 hb)
    | succ j => exact .inr ⟨j, r, by simpa using hj, hb⟩

/-- The list writer of a child does not fail, and it tells that there is a newline if an item has to begin a line. -/
def WLB (c : Config) (r : R) : Prop :=
  ∀ z c' st, Variant c c' → KeepsBut z c c' → r.wl c' st ≠ .err ∧
    ∀ st' b, r.wl c' st = .ok (st', b) → ∀ (i : Nat) (n : Node), r.node.kids[i]? = some n →
      ItemBreaks c z r.node.tag (i == 0) n → b = true

/-- A list that has to be indented passes the test. -/
theorem testIndent_must {env : Env} {z : List NOpt} {c c' : Config} (hv : Variant c c') (hk : KeepsBut z c c') {r : R} (hW : WLB c r)
    {loc : Loc} (hG : GapAt env loc) {x : Str} {st st1 : St} (h : testIndent env c' r loc x st = .ok (st1, false)) :
    ¬ HasIndent c r.node := by
  have hne : hintW env c' loc x st ≠ .err := by
    intro e
    have := hintW_live (S := False) (env := env) (c := c') (fun h => h.elim) (fun h => h.elim) hG (h := x) (fun h => h.elim)
      (st := st) (fun h => h.elim)
    rw [e] at this
    exact this
  unfold testIndent at h
  rw [hv.boolEq (o := .indentVarSuffix) (by decide), hv.boolEq (o := .indentExpList) (by decide),
    hv.boolEq (o := .indentOneLineVarSuffix) (by decide), hv.boolEq (o := .indentOneLineExpList) (by decide)] at h
  intro hI
  have hlist : ∀ (o1 o2 : Prop) [Decidable o1] [Decidable o2] (kids : List Node) st2, r.node.kids = kids → o1 →
      (o2 ∧ kids ≠ [] ∨ ∃ (i : Nat) (n : Node), kids[i]? = some n ∧ ItemBreaks c z r.node.tag (i == 0) n) →
      (if o1 then if o2 then (pure (st, true) : Res (St × Bool)) else
          match r.wl c' st2 with
          | .panic => .panic
          | .err => .ok (st, false)
          | .ok (st2, b) => .ok ({ st with cells := st2.cells }, b)
        else pure (st, false)) = .ok (st1, false) → False := by
    intro o1 o2 _ _ kids st2 hks h1 hx h
    rw [if_pos h1] at h
    split at h
    · cases h
    · next h2 =>
      obtain ⟨w1, w2⟩ := hW z c' st2 hv hk
      cases hw : r.wl c' st2 with
      | panic => rw [hw] at h; cases h
      | err => exact w1 hw
      | ok p =>
        obtain ⟨st3, b⟩ := p
        rw [hw] at h
        rcases hx with hx | ⟨i, n, hn, hb⟩
        · exact h2 hx.1
        · have := w2 st3 b hw i n (by rw [hks]; exact hn) hb
          subst this
          cases h
  generalize hnode : r.node = m at h hI
  obtain ⟨tag, span, locs, kids⟩ := m
  have hkids : r.node.kids = kids := by rw [hnode]; rfl
  have htag : r.node.tag = tag := by rw [hnode]; rfl
  have hnil : ∀ {P : Prop} {Q : Nat → Node → Prop}, (P ∧ kids ≠ [] ∨ ∃ (i : Nat) (n : Node), kids[i]? = some n ∧ Q i n) → kids ≠ [] := by
    rintro P Q (hx | ⟨i, n, hn, _⟩) rfl
    · exact hx.2 rfl
    · simp at hn
  have hwith : ∀ {k : St → Res (St × Bool)}, (match hintW env c' loc x st with
      | .panic => (Res.panic : Res (St × Bool))
      | .err => Res.ok (st, false)
      | .ok st1 => k st1) = .ok (st1, false) → ∃ st2, k st2 = .ok (st1, false) := by
    intro k h
    cases hw : hintW env c' loc x st with
    | panic => rw [hw] at h; cases h
    | err => exact absurd hw hne
    | ok st2 => rw [hw] at h; exact ⟨st2, h⟩
  cases tag <;> try exact hI.elim
  case expList s =>
    obtain ⟨h1, h2⟩ := hI
    simp only [Node.tag, Node.kids, if_neg (hnil h2)] at h
    split at h
    · next hone =>
      simp only [Res.pure_eq, Res.ok.injEq, Prod.mk.injEq, decide_eq_false_iff_not] at h
      rcases h2 with h2 | ⟨i, n, hn, hb⟩
      · exact h.2 ⟨h1, h2.1⟩
      · have hi : i = 0 := by
          have := (List.getElem?_eq_some_iff.1 hn).1
          omega
        subst hi
        have hf := (hb.resolve_right fun h => (by cases h.1)).1
        simp only [beq_self_eq_true, if_true] at hf
        rw [← hv.numEq (by decide)] at hf
        rw [hf] at hone
        simp at hone
    · obtain ⟨st2, h⟩ := hwith h
      refine hlist (c.bool .indentExpList = some true) (c.bool .indentOneLineExpList = some true) kids st2 hkids
        h1 ?_ (by rw [if_pos h1]; exact h)
      rw [htag]
      exact h2
  case varSuffixList =>
    obtain ⟨h1, h2⟩ := hI
    simp only [Node.tag, Node.kids, if_neg (hnil h2)] at h
    obtain ⟨st2, h⟩ := hwith h
    refine hlist (c.bool .indentVarSuffix = some true) (c.bool .indentOneLineVarSuffix = some true) kids st2 hkids
      h1 ?_ h
    rw [htag]
    exact h2

theorem runFms_marks {env : Env} {z : List NOpt} {c c' : Config} (hv : Variant c c') (hk : KeepsBut z c c') {locs : List Loc} {rs : List R}
    {ks : List (List Item)} (hK : KidsB env c rs ks) (hW : ∀ r ∈ rs, WLB c r) (hG : ∀ l ∈ locs, GapAt env l) : ∀ {ms : List Fm}, (∀ m ∈ ms, m.ok c') → ∀ {st st' : St}
    (p : Option Nat) (ls : List Int), (∀ l ∈ ls, AtLevel c l st.f) → FreshTables c st → runAll (runFm env locs rs c') ms st = .ok st' →
    st'.ctx = ms.foldl (fun x m => m.eff x) st.ctx ∧ ∃ marks,
      LEmits False env c p ((ms.flatMap Fm.slots).flatMap (slotItems locs ks)) marks st.f st'.f ∧
      FmsHold c marks z locs (rs.map (·.node)) st.ctx p ls ms := by
  intro ms
  induction ms with
  | nil => intro _ st st' p ls _ _ h; cases h; exact ⟨rfl, [], .nil, trivial⟩
  | cons m ms ih =>
    intro he st st' p ls hls hfr h
    have hm := he m (by simp)
    have ih := fun {st} => @ih (fun e h => he e (by simp [h])) st st'
    cases m with
    | el e =>
      simp only [runAll, Res.bind_eq_ok, runFm] at h
      obtain ⟨st1, h1, h2⟩ := h
      have hfr1 : FreshTables c st1 := hfr.same fun hf => runEl_tables (hv.force hf) hK.tables h1
      -- one step, then the rest
      have step : ∀ (x : Ctx) (p' : Option Nat) (ls' : List Int), st1.ctx = x → (∀ l ∈ ls', AtLevel c l st1.f) →
          e.eff st.ctx = x → e.pos locs p = p' → e.levels st.ctx ls = ls' →
          (∀ ms2, LEmits False env c p' ((ms.flatMap Fm.slots).flatMap (slotItems locs ks)) ms2 st1.f st'.f → ∃ ms1,
            LEmits False env c p ((e.slots ++ ms.flatMap Fm.slots).flatMap (slotItems locs ks)) (ms1 ++ ms2) st.f st'.f ∧
              ElHold c ms1 z (rs.map (·.node)) st.ctx p ls e) →
          st'.ctx = (Fm.el e :: ms).foldl (fun x e => e.eff x) st.ctx ∧ ∃ ms',
            LEmits False env c p (((Fm.el e :: ms).flatMap Fm.slots).flatMap (slotItems locs ks)) ms' st.f st'.f ∧
            FmsHold c ms' z locs (rs.map (·.node)) st.ctx p ls (.el e :: ms) := by
        rintro x p' ls' rfl hl' hx hp hl hs
        obtain ⟨a2, ms2, b2, d2⟩ := ih p' ls' hl' hfr1 h2
        obtain ⟨ms1, b1, d1⟩ := hs ms2 b2
        refine ⟨?_, ms1 ++ ms2, ?_, d1.mono fun x hx => by simp [hx], ?_⟩
        · rw [a2]; simp only [List.foldl_cons, Fm.eff, hx]
        · simpa only [List.flatMap_cons, Fm.slots] using b1
        · rw [hx, hp, hl]; exact d2.mono fun x hx => by simp [hx]
      cases e with
      | lit s =>
        cases h1
        exact step _ none [] rfl (fun _ h => by cases h) rfl rfl rfl fun ms2 b2 =>
          ⟨marksAt p (ls.map .lvl), .lit _ (lvl_holds hls _) b2, fun r hr l hl => lvl_mem hr hl⟩
      | hint i y =>
        obtain ⟨a, b⟩ := hintW_ok hv h1
        exact step _ _ [] a (fun _ h => by cases h) rfl rfl rfl fun ms2 b2 => ⟨[], .gap b.stepAt (.inr (slots_head hK.heads _).quiet) b2, trivial⟩
      | nl b i y =>
        obtain ⟨a, g⟩ := nlW_ok hv h1 (fun hb => hv.nlOpt (hm hb))
        have hlev : ∀ l ∈ (El.nl b i y).levels st.ctx ls, AtLevel c l st1.f := by
          intro l hl
          cases b with
          | false => cases hl
          | true =>
            cases List.mem_singleton.1 hl
            exact nlW_atLevel hv h1
        exact step _ _ _ a hlev rfl rfl rfl fun ms2 b2 => ⟨[], .gap g.stepAt (.inr (slots_head hK.heads _).quiet) b2, trivial⟩
      | kid i =>
        change kidW rs i c' st = .ok st1 at h1
        unfold kidW at h1
        cases hri : rs[i]? with
        | none => rw [hri] at h1; cases h1
        | some r =>
          rw [hri] at h1
          obtain ⟨a, ms1, g, b, d⟩ := hK.get hri z c' st st1 p ls hv hk hfr h1 hls
          refine step _ none [] a (fun _ h => by cases h) rfl rfl rfl fun ms2 b2 => ⟨ms1, ?_, ?_⟩
          · have := g.append b2 (slots_head hK.heads _)
            simpa [El.slots, slotItems] using this
          · exact ⟨r.node, by rw [List.getElem?_map, hri]; rfl, b, d⟩
      | inc =>
        cases h1
        exact step _ p ls rfl hls (by simp [St.ctx, incIndent, El.eff]) rfl rfl fun ms2 b2 => ⟨[], b2, trivial⟩
      | dec =>
        cases h1
        exact step _ p ls rfl hls (by simp [St.ctx, decIndent, El.eff]) rfl rfl fun ms2 b2 => ⟨[], b2, trivial⟩
      | incF => cases h1; exact step _ p ls rfl hls rfl rfl rfl fun ms2 b2 => ⟨[], b2, trivial⟩
      | decF => cases h1; exact step _ p ls rfl hls rfl rfl rfl fun ms2 b2 => ⟨[], b2, trivial⟩
    | ind k i x body =>
      simp only [runAll, Res.bind_eq_ok] at h
      obtain ⟨st1, h1, h2⟩ := h
      have hfr1 : FreshTables c st1 := hfr.same fun hf => runFm_tables (hv.force hf) hK.tables h1
      simp only [runFm] at h1
      cases hrk : rs[k]? with
      | none => rw [hrk] at h1; cases h1
      | some r =>
        rw [hrk] at h1
        simp only [Res.bind_eq_ok, Res.pure_eq] at h1
        obtain ⟨⟨st2, ind⟩, h3, st3, h4, h5⟩ := h1
        have hs := testIndent_same h3
        have hfr2 : FreshTables c st2 := hfr.same fun hf => testIndent_tables (hv.force hf) (hK.tables _ (List.mem_of_getElem? hrk)) h3
        have key : st1.ctx = st.ctx ∧ ∃ ms1,
            LEmits False env c p ((body.flatMap El.slots).flatMap (slotItems locs ks)) ms1 st.f st1.f ∧
            ((∃ n, (rs.map (·.node))[k]? = some n ∧ MayIndent c n.tag ∧
              ElsHold c ms1 z locs (rs.map (·.node)) (El.inc.eff st.ctx) p ls body) ∨
              (∀ n, (rs.map (·.node))[k]? = some n → ¬ HasIndent c n) ∧
              ElsHold c ms1 z locs (rs.map (·.node)) st.ctx p ls body) := by
          cases ind with
          | false =>
            cases h5
            simp only [Bool.false_eq_true, if_false] at h4 ⊢
            obtain ⟨a, ms1, b, d⟩ := runEls_marks hv hk hK (fun e he => (hm e he).1) p ls
              (by rw [hs.1]; exact hls) hfr2 h4
            rw [plain_eff (fun e he => (hm e he).2)] at a
            rw [hs.1] at b
            rw [hs.2] at d
            refine ⟨a.trans hs.2, ms1, b, .inr ⟨fun n hn => ?_, d⟩⟩
            rw [List.getElem?_map, hrk] at hn
            cases hn
            exact testIndent_must hv hk (hW r (List.mem_of_getElem? hrk)) (locAt_live hG i) h3
          | true =>
            cases h5
            simp only [if_true] at h4 ⊢
            obtain ⟨a, ms1, b, d⟩ := runEls_marks hv hk hK (fun e he => (hm e he).1) p ls
              (st := incIndent none st2) (by
                have hf : (incIndent none st2).f = st.f := hs.1
                rw [hf]; exact hls) hfr2 h4
            rw [plain_eff (fun e he => (hm e he).2)] at a
            have hf : (incIndent none st2).f = st.f := hs.1
            rw [hf] at b
            have hc : (incIndent none st2).ctx = El.inc.eff st.ctx := by
              rw [← hs.2]; simp [St.ctx, incIndent, El.eff]
            rw [hc] at a d
            refine ⟨?_, ms1, b, .inl ⟨r.node, by rw [List.getElem?_map, hrk]; rfl, testIndent_may hv h3, d⟩⟩
            simp only [St.ctx, El.eff, Prod.mk.injEq] at a
            simp only [St.ctx, decIndent, a.1, a.2.1, a.2.2]
            simp [Int.add_sub_cancel]
        obtain ⟨a1, ms1, b1, d1⟩ := key
        obtain ⟨a2, ms2, b2, d2⟩ := ih none [] (fun _ h => by cases h) hfr1 h2
        rw [a1] at a2 d2
        refine ⟨a2, ms1 ++ ms2, ?_, ?_, d2.mono fun x hx => by simp [hx]⟩
        · have := b1.append b2 (slots_head hK.heads _)
          simpa [Fm.slots] using this
        · exact d1.imp (fun ⟨n, h1, h2, h3⟩ => ⟨n, h1, h2, h3.mono fun x hx => by simp [hx]⟩)
            (fun ⟨h1, h2⟩ => ⟨h1, h2.mono fun x hx => by simp [hx]⟩)

end Luafmt
