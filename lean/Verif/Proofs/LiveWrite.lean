import Verif.Proofs.LiveTree
import Verif.Proofs.Ranges

/-
The printer never ends in an error on a tree of a parsed source, and it panics only if `S` fails.
-/
namespace Luafmt
open Spec

variable {S : Prop} {env : Env} {c : Config}

/-- The options that measure a line are used with `max_width` only. -/
structure WidthOk (c : Config) : Prop where
  op : (c.num .newlineFormatBinaryOp = some 1 ∨ c.num .newlineFormatBinaryOp = some 2) →
    c.bool .forceSingleLineBinaryOp = some true → (c.num .maxWidth).isSome = true
  exp : (c.num .newlineFormatExpList = some 1 ∨ c.num .newlineFormatExpListFirst = some 1) →
    c.bool .forceSingleLineExpList = some true → (c.num .maxWidth).isSome = true
  suffix : (c.num .newlineFormatVarSuffix).isSome = true →
    c.bool .forceSingleLineVarSuffix = some true → (c.num .maxWidth).isSome = true
  field : (c.num .newlineFormatTableField).isSome = true → c.bool .forceSingleLineIvTableField = some true →
    c.bool .forceSingleLineTable = some true → (c.num .maxWidth).isSome = true

/-- The configuration can be used. -/
def CfgSafe (c : Config) : Prop := StrsOk c ∧ WidthOk c

/-- The text of the state ends well. -/
def StOk (S : Prop) (st : St) : Prop := S → EndOk st.f

/-- A state and something else. -/
def StOk2 {α : Type} (S : Prop) (p : St × α) : Prop := StOk S p.1

/-- The writer never fails. -/
def WLive (S : Prop) (c : Config) (w : Config → W) : Prop :=
  (S → CfgSafe c) → ∀ st, StOk S st → OkOr S (StOk S) (w c st)

/-- The writers of a child never fail. -/
structure RLive (S : Prop) (r : R) : Prop where
  w : ∀ c, WLive S c r.w
  wl : ∀ c, (S → CfgSafe c) → ∀ st, StOk S st → OkOr S (StOk2 S) (r.wl c st)
  meth : r.node.tag = .fnMethodCall → ∀ c, WLive S c r.meth

theorem StOk.put {st : St} {s : Str} (h : StOk S st) (hs : S → EndOk s) : StOk S (st.put s) := fun x => (h x).append (hs x)

theorem hintW_live (hr : S → RangeOk env) (hc : S → CfgSafe c) {l : Loc} (hl : GapAt env l) {h : Str} (hh : S → EndOk h) {st : St}
    (hs : StOk S st) : OkOr S (StOk S) (hintW env c l h st) := by
  unfold hintW
  refine (commentHint_live (fun s => (hc s).1) hr hl hh hs).bind fun f k => ?_
  exact (k.keeps hs).1

theorem nlW_live (hr : S → RangeOk env) (hc : S → CfgSafe c) {b : Bool} {l : Loc} (hl : GapAt env l) {h : Str} (hh : S → EndOk h)
    {st : St} (hs : StOk S st) : OkOr S (StOk S) (nlW env c b l h st) := by
  unfold nlW
  refine (ifNewLine_live (fun s => (hc s).1) (fun h f hh hf => commentHint_live (fun s => (hc s).1) hr hl hh hf) hh hs).bind
    fun f k => ?_
  exact k.1

/-- Copying a piece of the source that is out of range. -/
theorem locW_live (hr : S → RangeOk env) {l : Loc} (h1 : l.l ≤ l.r) (h2 : l.r ≤ env.buf.length)
    (hp : env.posRange ≠ none) {st : St} (hs : StOk S st) : OkOr S (StOk S) (locW env l st) := by
  unfold locW
  have e : env.buf = env.buf.take l.l ++ ((env.buf.drop l.l).take (l.r - l.l) ++ env.buf.drop l.r) := by
    have : env.buf.drop l.r = (env.buf.drop l.l).drop (l.r - l.l) := by rw [List.drop_drop]; congr 1; omega
    rw [this, List.take_append_drop, List.take_append_drop]
  have := substr_src e
  have e2 : (⟨(env.buf.take l.l).length, (env.buf.take l.l).length + ((env.buf.drop l.l).take (l.r - l.l)).length⟩ : Loc) = l := by
    cases l
    simp only [Loc.mk.injEq]
    simp at h1 h2 ⊢
    omega
  rw [e2] at this
  rw [this]
  refine hs.put fun s => ?_
  rcases hr s with h | h
  · exact absurd h hp
  · exact OneByte.endOk fun ch hc => h ch (List.mem_of_mem_drop (List.mem_of_mem_take hc))

theorem outOfRange_some {pr : Option (Nat × Nat)} {l : Loc} (h : outOfRange pr l = true) : pr ≠ none := by
  rintro rfl
  cases h

theorem notContained_some {pr : Option (Nat × Nat)} {l : Loc} (h : notContained pr l = true) : pr ≠ none := by
  rintro rfl
  cases h

theorem GapAt.bounds {l : Loc} (h : GapAt env l) : l.l ≤ l.r ∧ l.r ≤ env.buf.length := by
  obtain ⟨a, g, b, e1, rfl, _⟩ := h
  rw [e1]
  simp

/-! ### Tests on one line -/

theorem testOneline_live {w : Config → W} (hw : WLive S c w) (hc : S → CfgSafe c) (hm : S → (c.num .maxWidth).isSome = true) {st : St} :
    OkOr S (fun p : St × Option Str => p.1.f = st.f ∧ ∀ s, p.2 = some s → S → EndOk s) (testOneline c w st) := by
  unfold testOneline
  have := hw hc { st with f := [] } (fun _ => .nil)
  revert this
  generalize w c { st with f := [] } = r
  cases r with
  | panic => exact id
  | err => intro h; exact h.elim
  | ok st' =>
    intro h
    simp only
    cases hx : c.num .maxWidth with
    | none =>
      intro s
      have := hm s
      rw [hx] at this
      cases this
    | some m =>
      refine ⟨rfl, fun s hs => ?_⟩
      simp only at hs
      split at hs
      · cases hs; exact h
      · cases hs

theorem testOnelineNoNl_live {w : Config → W} (hw : WLive S c w) (hc : S → CfgSafe c) (hm : S → (c.num .maxWidth).isSome = true)
    {st : St} : OkOr S (fun p : St × Option Str => p.1.f = st.f ∧ ∀ s, p.2 = some s → S → EndOk s) (testOnelineNoNl c w st) := by
  unfold testOnelineNoNl
  refine (testOneline_live hw hc hm).bind fun p hp => ?_
  obtain ⟨st', x⟩ := p
  refine ⟨hp.1, fun s hs => ?_⟩
  simp only at hs
  cases x with
  | none => cases hs
  | some y =>
    simp only at hs
    split at hs
    · cases hs
    · exact hp.2 s hs

/-- A question whose answer leaves the text alone. -/
def Asks {α : Type} (S : Prop) (st : St) (r : Res (St × α)) : Prop := OkOr S (fun p => p.1.f = st.f) r

theorem Asks.pure {α : Type} {st : St} {x : α} : Asks S st (Pure.pure (st, x)) := rfl

theorem asks_test {w : Config → W} (hw : WLive S c w) (hc : S → CfgSafe c) (hm : S → (c.num .maxWidth).isSome = true) {st : St} :
    Asks S st (do
      let (st, x) ← testOneline c w st
      Pure.pure (st, x.isNone)) :=
  (testOneline_live hw hc hm).bind fun _ hp => hp.1

theorem asks_testNoNl {w : Config → W} (hw : WLive S c w) (hc : S → CfgSafe c) (hm : S → (c.num .maxWidth).isSome = true) {st : St} :
    Asks S st (do
      let (st, x) ← testOnelineNoNl c w st
      Pure.pure (st, x.isNone)) :=
  (testOnelineNoNl_live hw hc hm).bind fun _ hp => hp.1

theorem asks_testNoNl' {w : Config → W} (hw : WLive S c w) (hc : S → CfgSafe c) (hm : S → (c.num .maxWidth).isSome = true) {st : St} :
    Asks S st (do
      let (st, x) ← testOnelineNoNl c w st
      Pure.pure (st, x.isSome)) :=
  (testOnelineNoNl_live hw hc hm).bind fun _ hp => hp.1

theorem testOnelineField_live {r : R} (h : RLive S r) (hc : S → CfgSafe c) {st : St} : Asks S st (testOnelineField c r st) := by
  unfold testOnelineField
  have : Asks S st (if (c.num .maxWidth).isSome && (c.num .newlineFormatTableField).isSome && narrow c r.node.span then
      testOnelineNoNl c r.w st
    else Pure.pure (st, none)) := by
    split
    · next hx =>
      simp only [Bool.and_eq_true] at hx
      exact (testOnelineNoNl_live (h.w c) hc (fun _ => hx.1.1)).imp fun _ hp => hp.1
    · exact Asks.pure
  split <;> first | exact this | exact Asks.pure

theorem Asks.map {α β : Type} {st : St} {r : Res (St × α)} {g : α → β} (h : Asks S st r) :
    Asks S st (do
      let (st, x) ← r
      Pure.pure (st, g x)) :=
  OkOr.bind h fun _ hp => hp

theorem needNewlineField_live {iv : Option Bool} {prev : Node} {r : R} (h : RLive S r) (hc : S → CfgSafe c) {st : St} :
    Asks S st (needNewlineField c iv prev r st) := by
  unfold needNewlineField
  split
  · next h1 =>
    split
    · next h2 =>
      split
      · next h3 =>
        have hm : S → (c.num .maxWidth).isSome = true := fun s => (hc s).2.field h1 h2.2 h3
        split
        · split
          · split
            · exact Asks.pure
            · exact asks_testNoNl' (h.w c) hc hm
          · exact asks_testNoNl (h.w c) hc hm
        · exact Asks.pure
      · exact Asks.pure
    · split
      · exact (testOnelineField_live h hc).map
      · exact Asks.pure
  · exact Asks.pure

theorem needNewlineSuffix_live {r : R} (h : RLive S r) (hc : S → CfgSafe c) {st : St} :
    Asks S st (needNewlineSuffix c r st) := by
  unfold needNewlineSuffix
  have hg : ∀ k : Res (St × Bool), ((S → (c.num .maxWidth).isSome = true) → Asks S st k) →
      Asks S st (if (c.num .newlineFormatVarSuffix).isSome then
        if c.bool .forceSingleLineVarSuffix = some true then k else Pure.pure (st, true)
      else Pure.pure (st, false)) := by
    intro k hk
    split
    · next h1 =>
      split
      · next h2 => exact hk fun s => (hc s).2.suffix h1 h2
      · exact Asks.pure
    · exact Asks.pure
  dsimp only
  split
  · exact hg _ fun hm => asks_test (h.w c) hc hm
  · next ht =>
    refine hg _ fun hm => ?_
    have hmeth := h.meth ht c
    split
    · exact asks_test hmeth hc hm
    · exact asks_test hmeth hc hm
    · exact asks_test hmeth hc hm
    · split
      · exact asks_test hmeth hc hm
      · exact asks_test (h.w c) hc hm
    · exact asks_test (h.w c) hc hm
  · exact Asks.pure

theorem needNewline_live {parent : Tag} {prev : Node} {r : R} (h : RLive S r) (hc : S → CfgSafe c) {st : St} :
    Asks S st (needNewline c parent prev r st) := by
  unfold needNewline
  split
  · exact Asks.pure
  · dsimp only
    refine OkOr.ite Asks.pure ?_
    split
    · next h1 =>
      split
      · next h2 => exact asks_test (h.w c) hc fun s => (hc s).2.exp (.inl h1) h2
      · exact Asks.pure
    · exact Asks.pure
  · exact Asks.pure
  · exact needNewlineField_live h hc
  · exact needNewlineSuffix_live h hc
  · exact Asks.pure

theorem needFirstNewline_live {parent : Tag} {pos : Nat} {r : R} (h : RLive S r) (hc : S → CfgSafe c) {st : St} :
    Asks S st (needFirstNewline c parent pos r st) := by
  unfold needFirstNewline
  split
  · split
    · split
      · exact Asks.pure
      · split
        · exact (testOnelineField_live h hc).map
        · exact Asks.pure
    · exact Asks.pure
  · split
    · next h1 =>
      split
      · next h2 => exact asks_test (h.w c) hc fun s => (hc s).2.exp (.inr h1) h2
      · exact Asks.pure
    · exact Asks.pure
  · exact needNewlineSuffix_live h hc
  · exact Asks.pure

/-! ### Lists -/

theorem askFirst_live {tag : Tag} {pos : Nat} {r : R} (h : RLive S r) (hc : S → CfgSafe c) {st : St} :
    Asks S st (askFirst c tag pos r st) := by
  unfold askFirst
  split
  · exact needFirstNewline_live h hc
  · exact Asks.pure

theorem askNext_live {tag : Tag} {prev : Node} {r : R} (h : RLive S r) (hc : S → CfgSafe c) {st : St} :
    Asks S st (askNext c tag prev r st) := by
  unfold askNext
  split
  · exact needNewline_live h hc
  · exact Asks.pure

theorem StOk.of_eq {st st' : St} (h : StOk S st) (e : st'.f = st.f) : StOk S st' := by
  intro s
  rw [e]
  exact h s

theorem itemGap_live (hr : S → RangeOk env) (hc : S → CfgSafe c) {tag : Tag} {prev : Node} {r : R} (h : RLive S r) {l : Loc}
    (hl : GapAt env l) {g : Str} (hg : S → EndOk g) {st : St} (hs : StOk S st) :
    OkOr S (StOk2 S) (itemGap env c tag prev r l g st) := by
  unfold itemGap
  split
  · next ho =>
    refine (locW_live hr hl.bounds.1 hl.bounds.2 (outOfRange_some ho) hs).bind fun st' k => ?_
    exact k
  · refine OkOr.bind (askNext_live h hc) fun p e => ?_
    refine (nlW_live hr hc hl hg (hs.of_eq e)).bind fun st' k => ?_
    exact k

/-- The item of a list can be printed. -/
structure SepItem.Ok (S : Prop) (env : Env) (it : SepItem) : Prop where
  pre : GapAt env it.pre
  item : RLive S it.item
  post : GapAt env it.post
  sep : S → EndOk it.sep

theorem elementHint_end (t : Tag) : EndOk (elementHint t) := by
  cases t <;> exact endOk_of (by rfl)

theorem itemHint_end (t : Tag) : EndOk (itemHint t) := by
  cases t <;> exact endOk_of (by rfl)

theorem getSep_end (hc : S → CfgSafe c) {tag : Tag} {it : SepItem} (h : it.Ok S env) : S → EndOk (getSep c tag it) := by
  intro s
  unfold getSep
  have hsep := h.sep s
  cases hx : separator c tag with
  | none => exact hsep
  | some y =>
    cases tag <;> simp only [separator] at hx <;> try (cases hx; done)
    case fields => exact (hc s).1 _ _ hx
    all_goals (cases hx; exact endOk_of (by rfl))

theorem sepRest_live (hr : S → RangeOk env) (hc : S → CfgSafe c) {tag : Tag} {pos : Nat} {its : List SepItem} :
    ∀ {last : SepItem} {ind : Bool} {st : St}, last.Ok S env → (∀ it ∈ its, it.Ok S env) → StOk S st →
      OkOr S (StOk2 S) (sepRest env c tag pos last its ind st) := by
  induction its with
  | nil =>
    intro last ind st hl _ hs
    simp only [sepRest]
    split
    · exact hs.put (getSep_end hc hl)
    · exact hs
  | cons it its ih =>
    intro last ind st hl hi hs
    obtain ⟨h1, h2, h3, h4⟩ := hi it List.mem_cons_self
    simp only [sepRest]
    refine (itemGap_live hr hc h2 h1 (fun _ => elementHint_end tag) (hs.put (getSep_end hc hl))).bind fun p k => ?_
    refine (h2.w c hc p.1 k).bind fun st2 k2 => ?_
    refine (hintW_live hr hc h3 (fun _ => .nil) k2).bind fun st3 k3 => ?_
    exact ih (hi it List.mem_cons_self) (fun x hx => hi x (List.mem_cons_of_mem _ hx)) k3

theorem sepList_live (hr : S → RangeOk env) (hc : S → CfgSafe c) {tag : Tag} {pos : Nat} {its : List SepItem} {st : St}
    (hi : ∀ it ∈ its, it.Ok S env) (hs : StOk S st) : OkOr S (StOk2 S) (sepList env c tag pos its st) := by
  unfold sepList
  cases its with
  | nil => exact hs
  | cons it its =>
    obtain ⟨h1, h2, h3, h4⟩ := hi it List.mem_cons_self
    simp only
    refine OkOr.bind (askFirst_live h2 hc) fun p e => ?_
    refine (nlW_live hr hc h1 (fun _ => .nil) (hs.of_eq e)).bind fun st1 k1 => ?_
    refine (h2.w c hc _ k1).bind fun st2 k2 => ?_
    refine (hintW_live hr hc h3 (fun _ => .nil) k2).bind fun st3 k3 => ?_
    exact sepRest_live hr hc (hi it List.mem_cons_self) (fun x hx => hi x (List.mem_cons_of_mem _ hx)) k3

theorem listRest_live (hr : S → RangeOk env) (hc : S → CfgSafe c) {tag : Tag} {its : List (Loc × R)} :
    ∀ {prev : Node} {ind : Bool} {st : St}, (∀ it ∈ its, GapAt env it.1 ∧ RLive S it.2) → StOk S st →
      OkOr S (StOk2 S) (listRest env c tag prev its ind st) := by
  induction its with
  | nil => intro prev ind st _ hs; exact hs
  | cons it its ih =>
    intro prev ind st hi hs
    obtain ⟨l, r⟩ := it
    obtain ⟨h1, h2⟩ := hi (l, r) List.mem_cons_self
    simp only [listRest]
    refine (itemGap_live hr hc h2 h1 (fun _ => itemHint_end _) hs).bind fun p k => ?_
    refine (h2.w c hc p.1 k).bind fun st2 k2 => ?_
    exact ih (fun x hx => hi x (List.mem_cons_of_mem _ hx)) k2

theorem plainList_live (hr : S → RangeOk env) (hc : S → CfgSafe c) {tag : Tag} {pos : Nat} {its : List (Loc × R)} {st : St}
    (hi : ∀ it ∈ its, GapAt env it.1 ∧ RLive S it.2) (hs : StOk S st) : OkOr S (StOk2 S) (plainList env c tag pos its st) := by
  unfold plainList
  cases its with
  | nil => exact hs
  | cons it its =>
    obtain ⟨l, r⟩ := it
    obtain ⟨h1, h2⟩ := hi (l, r) List.mem_cons_self
    simp only
    refine OkOr.bind (askFirst_live h2 hc) fun p e => ?_
    refine (nlW_live hr hc h1 (fun _ => .nil) (hs.of_eq e)).bind fun st1 k1 => ?_
    refine (h2.w c hc _ k1).bind fun st2 k2 => ?_
    exact listRest_live hr hc (fun x hx => hi x (List.mem_cons_of_mem _ hx)) k2

theorem sepItems_ok {rs : List R} (hrs : ∀ r ∈ rs, RLive S r) : ∀ {ls : List Loc} {ss : List Str}, (∀ l ∈ ls, GapAt env l) →
    (∀ s ∈ ss, EndOk s) → ∀ it ∈ sepItems ls rs ss, it.Ok S env := by
  induction rs with
  | nil =>
    intro ls ss _ _ it h
    cases ls with
    | nil => simp [sepItems] at h
    | cons l ls => cases ls <;> simp [sepItems] at h
  | cons r rs ih =>
    intro ls ss hl hs it h
    match ls, ss with
    | l :: l' :: ls, s :: ss =>
      simp only [sepItems, List.mem_cons] at h
      rcases h with rfl | h
      · exact ⟨hl l (by simp), hrs r List.mem_cons_self, hl l' (by simp), fun _ => hs s List.mem_cons_self⟩
      · exact ih (fun x hx => hrs x (List.mem_cons_of_mem _ hx)) (fun x hx => hl x (by simp [hx]))
          (fun x hx => hs x (List.mem_cons_of_mem _ hx)) it h
    | [], _ => simp [sepItems] at h
    | [_], _ => simp [sepItems] at h
    | _ :: _ :: _, [] => simp [sepItems] at h

theorem listW_live (hr : S → RangeOk env) (hc : S → CfgSafe c) {tag : Tag} {span : Loc} {locs : List Loc} {rs : List R}
    (hl : ∀ l ∈ locs, GapAt env l) (ht : TagOk tag) (hrs : ∀ r ∈ rs, RLive S r) {st : St} (hs : StOk S st) :
    OkOr S (StOk2 S) (listW env tag span locs rs c st) := by
  unfold listW
  split
  · next ss hss => exact sepList_live hr hc (sepItems_ok hrs hl (ht.seps ss hss)) hs
  · split
    · refine plainList_live hr hc (fun it hi => ?_) hs
      obtain ⟨l, r⟩ := it
      have := List.of_mem_zip hi
      exact ⟨hl _ this.1, hrs _ this.2⟩
    · exact hs

theorem testIndent_live (hr : S → RangeOk env) (hc : S → CfgSafe c) {r : R} (h : RLive S r) {l : Loc} (hl : GapAt env l) {g : Str}
    (hg : S → EndOk g) {st : St} (hs : StOk S st) : Asks S st (testIndent env c r l g st) := by
  unfold testIndent
  have hlist : ∀ st1, StOk S st1 → Asks S st (match r.wl c st1 with
      | .panic => .panic
      | .err => .ok (st, false)
      | .ok (st2, b) => .ok ({ st with cells := st2.cells }, b)) := by
    intro st1 h1
    have := h.wl c hc st1 h1
    revert this
    generalize r.wl c st1 = x
    cases x with
    | panic => exact id
    | err => intro h; exact h.elim
    | ok p => intro _; exact rfl
  have hwith : ∀ k : St → Res (St × Bool), (∀ st1, StOk S st1 → Asks S st (k st1)) → Asks S st (match hintW env c l g st with
      | .panic => .panic
      | .err => .ok (st, false)
      | .ok st1 => k st1) := by
    intro k hk
    have := hintW_live hr hc hl hg hs
    revert this
    generalize hintW env c l g st = x
    cases x with
    | panic => exact id
    | err => intro h; exact h.elim
    | ok p => intro h; exact hk p h
  dsimp only
  split
  · refine OkOr.ite Asks.pure (hwith _ fun st1 h1 => ?_)
    exact OkOr.ite (OkOr.ite Asks.pure (hlist st1 h1)) Asks.pure
  · refine OkOr.ite Asks.pure (OkOr.ite Asks.pure (hwith _ fun st1 h1 => ?_))
    exact OkOr.ite (OkOr.ite Asks.pure (hlist st1 h1)) Asks.pure
  · exact OkOr.ite Asks.pure (hwith _ hlist)
  · exact Asks.pure

/-! ### Arms -/

theorem locAt_live {locs : List Loc} (hl : ∀ l ∈ locs, GapAt env l) (i : Nat) : GapAt env (locAt locs i) := by
  unfold locAt
  cases h : locs[i]? with
  | none => exact GapAt.here (Nat.zero_le _)
  | some l => exact hl l (List.mem_of_getElem? h)

theorem kidW_live {rs : List R} (hrs : ∀ r ∈ rs, RLive S r) {i : Nat} (hi : i < rs.length) : WLive S c (kidW rs i) := by
  intro hc st hs
  unfold kidW
  rw [List.getElem?_eq_getElem hi]
  exact (hrs _ (List.getElem_mem hi)).w c hc st hs

theorem runSh_live (hr : S → RangeOk env) (hc : S → CfgSafe c) (hp : env.posRange ≠ none) {locs : List Loc} {rs : List R}
    (hl : ∀ l ∈ locs, GapAt env l) (hrs : ∀ r ∈ rs, RLive S r) {op : Str} (ho : EndOk op) {e : Sh} (h1 : e.litOk op)
    (h2 : e.ix ≤ rs.length) {st : St} (hs : StOk S st) : OkOr S (StOk S) (runSh env locs rs c e st) := by
  cases e with
  | lit s =>
    refine hs.put fun _ => ?_
    rcases h1 with h1 | rfl
    · exact endOk_of h1
    · exact ho
  | gap i =>
    have := (locAt_live hl i).bounds
    exact locW_live hr this.1 this.2 hp hs
  | kid i => exact kidW_live hrs h2 hc st hs

theorem runEl_live (hr : S → RangeOk env) (hc : S → CfgSafe c) {locs : List Loc} {rs : List R}
    (hl : ∀ l ∈ locs, GapAt env l) (hrs : ∀ r ∈ rs, RLive S r) {op : Str} (ho : EndOk op) {e : El} (h1 : e.litOk op)
    (h2 : e.ix ≤ rs.length) {st : St} (hs : StOk S st) : OkOr S (StOk S) (runEl env locs rs c e st) := by
  cases e with
  | lit s =>
    refine hs.put fun _ => ?_
    rcases h1 with h1 | rfl
    · exact endOk_of h1
    · exact ho
  | hint i h => exact hintW_live hr hc (locAt_live hl i) (fun _ => endOk_of h1) hs
  | nl b i h => exact nlW_live hr hc (locAt_live hl i) (fun _ => endOk_of h1) hs
  | kid i => exact kidW_live hrs h2 hc st hs
  | inc => exact hs
  | dec => exact hs
  | incF => exact hs
  | decF => exact hs

theorem runAll_live {α : Type} {run : α → W} {xs : List α} (h : ∀ x ∈ xs, ∀ st, StOk S st → OkOr S (StOk S) (run x st)) :
    ∀ {st : St}, StOk S st → OkOr S (StOk S) (runAll run xs st) := by
  induction xs with
  | nil => intro st hs; exact hs
  | cons x xs ih =>
    intro st hs
    simp only [runAll]
    refine (h x List.mem_cons_self st hs).bind fun st' k => ?_
    exact ih (fun y hy => h y (List.mem_cons_of_mem _ hy)) k

theorem runFm_live (hr : S → RangeOk env) (hc : S → CfgSafe c) {locs : List Loc} {rs : List R}
    (hl : ∀ l ∈ locs, GapAt env l) (hrs : ∀ r ∈ rs, RLive S r) {op : Str} (ho : EndOk op) {e : Fm} (h1 : e.litOk op)
    (h2 : e.ix ≤ rs.length) {st : St} (hs : StOk S st) : OkOr S (StOk S) (runFm env locs rs c e st) := by
  cases e with
  | el e => exact runEl_live hr hc hl hrs ho h1 h2 hs
  | ind k i h body =>
    obtain ⟨m1, m2⟩ := foldl_max_le El.ix body (k + 1)
    have hk : k < rs.length := Nat.le_trans m1 h2
    simp only [runFm, List.getElem?_eq_getElem hk]
    refine OkOr.bind (testIndent_live hr hc (hrs _ (List.getElem_mem hk)) (locAt_live hl i) (fun _ => endOk_of h1.1) hs) fun p e => ?_
    refine OkOr.bind (runAll_live (fun x hx st hs => runEl_live hr hc hl hrs ho (h1.2 x hx) (Nat.le_trans (m2 x hx) h2) hs) ?_)
      fun st2 k2 => ?_
    · split
      · exact hs.of_eq e
      · exact hs.of_eq e
    · show StOk S _
      split <;> exact k2

theorem binaryW_live (hr : S → RangeOk env) {locs : List Loc} {rs : List R}
    (hl : ∀ l ∈ locs, GapAt env l) (hrs : ∀ r ∈ rs, RLive S r) {op : Str} (ho : EndOk op) (hn : 2 ≤ rs.length) :
    WLive S c (binaryW env op locs rs) := by
  intro hc st hs
  unfold binaryW
  refine (kidW_live hrs (i := 0) (by omega) hc (incIndent (some op) st) hs).bind fun st1 k1 => ?_
  have hlist : ∀ es : List El, (∀ e ∈ es, e.litOk op ∧ e.ix ≤ 2) → ∀ st, StOk S st →
      OkOr S (StOk S) (runAll (runEl env locs rs c) es st) := by
    intro es he st hs
    exact runAll_live (fun x hx st hs => runEl_live hr hc hl hrs ho (he x hx).1 (Nat.le_trans (he x hx).2 hn) hs) hs
  have tail : ∀ p : St × Bool, StOk S p.1 → OkOr S (StOk S) (runAll (runEl env locs rs c)
      [.nl (decide (c.num .newlineFormatBinaryOp = some 1) && !p.2) 0 [' '], .lit op,
        .nl (decide (c.num .newlineFormatBinaryOp = some 2) && !p.2) 1 [' '], .kid 1, .dec] p.1) := by
    intro p hp
    refine hlist _ ?_ _ hp
    simp +decide [El.litOk, El.ix]
  dsimp only
  split
  · next h1 =>
    have hw : WLive S c (fun c => runAll (runEl env locs rs c) [.hint 0 [' '], .lit op, .hint 1 [' '], .kid 1]) := by
      intro _ st hs
      refine hlist _ ?_ st hs
      simp +decide [El.litOk, El.ix]
    refine OkOr.bind (testOneline_live hw hc fun s => (hc s).2.op ?_ h1.2) fun p hp => tail (p.1, p.2.isSome) (k1.of_eq hp.1)
    simpa using h1.1
  · exact tail (st1, false) k1

theorem tableW_live (hr : S → RangeOk env) {isIv isSingle : Option Bool} {span : Loc} {locs : List Loc} {rs : List R}
    (hl : ∀ l ∈ locs, GapAt env l) (hrs : ∀ r ∈ rs, RLive S r) (hn : 1 ≤ rs.length) :
    WLive S c (tableW env isIv isSingle span locs rs) := by
  intro hc st hs
  unfold tableW
  have hh : S → EndOk ((c.str .hintTableConstructor).getD []) := fun s => (hc s).1.getD _
  dsimp only
  refine (nlW_live hr hc (GapAt.here (Nat.zero_le _)) hh hs).bind fun st1 k1 => ?_
  have k1' : StOk S ({ st1.put ['{'] with fn := st1.fn + 1 } : St) := k1.put fun _ => .single (by decide)
  rw [List.getElem?_eq_getElem hn]
  have hr0 := hrs _ (List.getElem_mem hn)
  simp only
  generalize rs[0] = r at hr0
  have hst : ∀ st : St, StOk S st → ∀ b : Bool, StOk S (match r.node.tag with
      | .fields _ _ _ =>
        { st with cells := { st.cells with indent := upd st.cells.indent r.node.span.l b } }
      | _ => st) := by
    intro st hs b
    split <;> exact hs
  have hif : ∀ (b : Bool) (st : St), StOk S st → StOk S (if b = true then incIndent none st else st) := by
    intro b st hs
    split <;> exact hs
  have hif2 : ∀ (b : Bool) (st : St), StOk S st → StOk S ({ (if b = true then decIndent st else st) with fn := (if b = true then decIndent st else st).fn - 1 } : St) := by
    intro b st hs
    show S → EndOk (if b = true then decIndent st else st).f
    split <;> exact hs
  have tail : ∀ p : St × Bool, StOk S p.1 → OkOr S (StOk S) (do
      let st ← hintW env c (locAt locs 0) ((c.str .hintTableConstructor).getD []) (if p.2 then incIndent none (match r.node.tag with
        | .fields _ _ _ =>
          { p.1 with cells := { p.1.cells with indent := upd p.1.cells.indent r.node.span.l p.2 } }
        | _ => p.1) else (match r.node.tag with
        | .fields _ _ _ =>
          { p.1 with cells := { p.1.cells with indent := upd p.1.cells.indent r.node.span.l p.2 } }
        | _ => p.1))
      let st ← r.w c st
      let st ← nlW env c ((c.num .newlineFormatTableConstructor = some 1 ||
        (match c.num .maxWidth with
         | some m => m ≤ lenAfterNewline st.f
         | none => false)) && p.2) (locAt locs 1) ((c.str .hintTableConstructor).getD [])
          { (if p.2 = true then decIndent st else st) with fn := (if p.2 = true then decIndent st else st).fn - 1 }
      Pure.pure (st.put ['}'])) := by
    intro p hp
    refine (hintW_live hr hc (locAt_live hl 0) hh (hif _ _ (hst _ hp _))).bind fun st2 k2 => ?_
    refine (hr0.w c hc _ k2).bind fun st3 k3 => ?_
    refine (nlW_live hr hc (locAt_live hl 1) hh (hif2 _ _ k3)).bind fun st4 k4 => ?_
    exact k4.put fun _ => .single (by decide)
  split
  · exact OkOr.bind (testIndent_live hr hc hr0 (locAt_live hl 0) hh k1') fun p e => tail p (k1'.of_eq e)
  · exact tail (_, true) k1'

theorem tableEmptyW_live (hr : S → RangeOk env) {locs : List Loc} (hl : ∀ l ∈ locs, GapAt env l) :
    WLive S c (tableEmptyW env locs) := by
  intro hc st hs
  unfold tableEmptyW
  have hh : S → EndOk ((c.str .hintTableConstructor).getD []) := fun s => (hc s).1.getD _
  dsimp only
  refine (commentHint_live (fun s => (hc s).1) hr (locAt_live hl 0) hh (fun _ => .nil)).bind fun t _ => ?_
  refine (nlW_live hr hc (locAt_live hl 0) hh (hs.put fun _ => .single (by decide))).bind fun st1 k1 => ?_
  exact k1.put fun _ => .single (by decide)

theorem plainW_live (hr : S → RangeOk env) {tag : Tag} {span : Loc} {locs : List Loc} {rs : List R}
    (hl : ∀ l ∈ locs, GapAt env l) (hn : tag.need ≤ rs.length) (ht : TagOk tag) (hrs : ∀ r ∈ rs, RLive S r) :
    WLive S c (plainW env tag span locs rs) := by
  intro hc st hs
  have main : OkOr S (StOk S) ((match tag.template c with
      | some fms => runAll (runFm env locs rs c) fms
      | none => fun st => do
        let (st, _) ← listW env tag span locs rs c st
        Pure.pure st : W) st) := by
    cases hf : tag.template c with
    | some fs =>
      have hlit := template_lits c tag
      rw [hf] at hlit
      exact runAll_live (fun x hx st hs => runFm_live hr hc hl hrs ht.op (hlit x hx) (Nat.le_trans (template_need hf x hx) hn) hs) hs
    | none => exact OkOr.bind (listW_live hr hc hl ht hrs hs) fun p k => k
  unfold plainW
  split
  · next op => exact binaryW_live hr hl hrs (show EndOk (Tag.op (.binaryOp op)) from ht.op) (Nat.le_trans (Nat.le_max_left _ _) hn) hc st hs
  · next a b =>
    refine tableW_live hr hl hrs (Nat.le_trans ?_ hn) hc st hs
    exact Nat.le_max_left _ _
  · exact tableEmptyW_live hr hl hc st hs
  · exact main

theorem onelineCfg_safe {tag : Tag} {span : Loc} {st : St} {tc : Config} (h : onelineCfg c tag span st = some tc) :
    (c.num .maxWidth).isSome = true ∧ (StrsOk c → CfgSafe tc) ∧ (tc.num .maxWidth).isSome = true := by
  have w : ∀ d : Config, (d.num .maxWidth).isSome = true → WidthOk d := fun d h =>
    ⟨fun _ _ => h, fun _ _ => h, fun _ _ => h, fun _ _ _ => h⟩
  unfold onelineCfg at h
  split at h
  · split at h
    · next hx =>
      cases h
      simp only [Bool.and_eq_true] at hx
      exact ⟨hx.1.1.1, fun hs => ⟨fun o s => hs o s, w _ hx.1.1.1⟩, hx.1.1.1⟩
    · cases h
  · split at h
    · split at h
      · next hx =>
        cases h
        simp only [Bool.and_eq_true] at hx
        exact ⟨hx.1.1.1, fun hs => ⟨fun o s => hs o s, w _ hx.1.1.1⟩, hx.1.1.1⟩
      · cases h
    · split at h
      · split at h
        · next hx =>
          cases h
          simp only [Bool.and_eq_true] at hx
          exact ⟨hx.1.1.1, fun hs => ⟨fun o s => hs o s, w _ hx.1.1.1⟩, hx.1.1.1⟩
        · cases h
      · cases h

theorem armW_live (hr : S → RangeOk env) {tag : Tag} {span : Loc} {locs : List Loc} {rs : List R}
    (hl : ∀ l ∈ locs, GapAt env l) (hn : tag.need ≤ rs.length) (ht : TagOk tag) (hrs : ∀ r ∈ rs, RLive S r) :
    WLive S c (armW env tag span locs rs) := by
  intro hc st hs
  unfold armW
  split
  · exact plainW_live hr hl hn ht hrs hc st hs
  · next tc htc =>
    obtain ⟨_, h2, h3⟩ := onelineCfg_safe htc
    have hc' : S → CfgSafe tc := fun s => h2 (hc s).1
    refine OkOr.bind (testOnelineNoNl_live (plainW_live hr hl hn ht hrs) hc' (fun _ => h3)) fun p hp => ?_
    obtain ⟨st1, x⟩ := p
    cases x with
    | none => exact plainW_live hr hl hn ht hrs hc st1 (hs.of_eq hp.1)
    | some line =>
      refine StOk.put ?_ (hp.2 line rfl)
      split <;> exact hs.of_eq hp.1

theorem writeW_live (hr : S → RangeOk env) {tag : Tag} {span : Loc} {locs : List Loc} {rs : List R}
    (hsp : span.l ≤ span.r ∧ span.r ≤ env.buf.length)
    (hl : ∀ l ∈ locs, GapAt env l) (hn : tag.need ≤ rs.length) (ht : TagOk tag) (hrs : ∀ r ∈ rs, RLive S r) :
    WLive S c (writeW env tag span locs rs) := by
  intro hc st hs
  unfold writeW
  cases hx : tag.leafText with
  | some s => exact hs.put fun _ => ht.leaf s hx
  | none =>
    simp only
    split
    · next ho =>
      simp only [Bool.and_eq_true] at ho
      exact locW_live hr hsp.1 hsp.2 (outOfRange_some ho.2) hs
    · cases hsh : tag.shape with
      | some sh =>
        simp only
        split
        · next hnc =>
          have hlit := shape_lits tag
          rw [hsh] at hlit
          exact runAll_live (fun x hx st hs => runSh_live hr hc (notContained_some hnc) hl hrs ht.op (hlit x hx)
            (Nat.le_trans (shape_need hsh x hx) hn) hs) hs
        · exact armW_live hr hl hn ht hrs hc st hs
      | none => exact armW_live hr hl hn ht hrs hc st hs

mutual
theorem mkR_live (hr : S → RangeOk env) : ∀ (n : Node), n.Live env → RLive S (mkR env n)
  | .mk tag span locs kids, h => by
    obtain ⟨h1, h2, h3, h4, h5⟩ := h
    obtain ⟨k1, k2⟩ := mkRs_live hr kids h5
    have hn : tag.need ≤ (mkRs env kids).length := by rw [k2]; exact h3
    refine ⟨fun c => writeW_live hr h1 h2 hn h4 k1, fun c hc st hs => listW_live hr hc h2 h4 k1 hs, fun ht c hc st hs => ?_⟩
    have ht : tag = .fnMethodCall := ht
    subst ht
    have hn' : 2 ≤ (mkRs env kids).length := Nat.le_trans (by decide) hn
    refine runAll_live (fun x hx st hs => ?_) hs
    simp only [List.mem_cons, List.not_mem_nil, or_false] at hx
    refine runEl_live (op := []) hr hc h2 k1 .nil ?_ ?_ hs
    · rcases hx with rfl | rfl | rfl
      · exact .inl (by decide)
      · exact (by decide : endOkB [] = true)
      · exact trivial
    · rcases hx with rfl | rfl | rfl
      · exact Nat.zero_le _
      · exact Nat.zero_le _
      · exact Nat.le_trans (by decide) hn'
theorem mkRs_live (hr : S → RangeOk env) : ∀ (ns : List Node), Node.LiveAll env ns →
    (∀ r ∈ mkRs env ns, RLive S r) ∧ (mkRs env ns).length = ns.length
  | [], _ => ⟨fun _ h => (nomatch h), rfl⟩
  | n :: ns, h => by
    obtain ⟨k1, k2⟩ := mkRs_live hr ns h.2
    refine ⟨fun r hm => ?_, by simp [mkRs, k2]⟩
    simp only [mkRs, List.mem_cons] at hm
    rcases hm with rfl | hm
    · exact mkR_live hr n h.1
    · exact k1 r hm
end

/-- Printing the tree of a parsed source. -/
theorem writeTree_live (hr : S → RangeOk env) (hc : S → CfgSafe c) {n : Node} (h : n.Live env) :
    OkOr S (fun _ => True) (writeTree env c n) := by
  unfold writeTree
  exact OkOr.bind ((mkR_live hr n h).w c hc St.init (fun _ => .nil)) fun _ _ => trivial

/-- Formatting a source that can be parsed does not end in an error, and it does not panic with a safe
configuration and range. -/
theorem formatTree_live {src : Str} {tree : Node} (h : parseLua src = some tree)
    (hc : S → CfgSafe c) (hr : S → c.lineRange = none ∨ OneByte src) :
    OkOr S (fun _ => True) (formatTree c src tree) := by
  unfold formatTree effectiveRange
  have hx : ∃ pr, lineRangeToPosRange src c.lineRange = .ok pr ∧ (c.lineRange = none → pr = none) := by
    cases hl : c.lineRange with
    | none => exact ⟨none, rfl, fun _ => rfl⟩
    | some p =>
      obtain ⟨l, r⟩ := p
      unfold lineRangeToPosRange
      have hlen := nlpos_length src
      dsimp only
      generalize hps : nlpos src = ps at hlen
      have g1 : ∀ k, k < ps.length → ∃ a, ps[k]? = some a := fun k hk => ⟨_, List.getElem?_eq_getElem hk⟩
      obtain ⟨a, ha⟩ := g1 ((if 0 < l ∧ l ≤ r ∧ l < ps.length then l else 1) - 1) (by split <;> omega)
      obtain ⟨b, hb⟩ := g1 (if 0 < r ∧ l ≤ r ∧ r < ps.length then r else ps.length - 1) (by split <;> omega)
      rw [ha, hb]
      exact ⟨_, rfl, fun h => (by cases h)⟩
  obtain ⟨pr, e, hp⟩ := hx
  rw [e]
  simp only [Res.bind_ok, Res.pure_eq]
  refine writeTree_live (fun s => ?_) hc (annotate_live c tree none (parseLua_live h _))
  rcases hr s with h | h
  · left
    rw [hp h]
    exact growRange_none tree 0
  · exact .inr h

end Luafmt
