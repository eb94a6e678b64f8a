import Verif.Model.Parser

/-
The parser returns derivation trees of the grammar whose leaves are the tokens it has read.
-/
namespace Luafmt

/-- Membership in a table of the grammar. -/
macro "inTable" : tactic =>
  `(tactic| first | decide +kernel |
    (simp only [List.isEmpty_nil, List.isEmpty_cons, if_true, if_false, Bool.false_eq_true]; decide +kernel))

/-- What the trees of an answer are. -/
def ReqOk : Req → List C → Prop
  | .nt n, cs => ∃ c, cs = [c] ∧ Derives n c
  | .statList, cs => cs = [] ∨ Matches [.list .stat] cs
  | .elseIfs, cs => cs = [] ∨ Matches [.list .elseIfThen] cs
  | .suffixes, cs => cs = [] ∨ Matches [.list .varSuffix] cs
  | .sepTail n tok, cs => cs = [] ∨ ∃ cs', cs = .tok tok :: cs' ∧ Matches [.sep n tok] cs'
  | .fieldItems, cs => Matches [.sepEnd .field] cs
  | .opTail k acc, cs => Derives (.op k) acc → ∃ c, cs = [c] ∧ Derives (.op k) c

/-- The tokens that the answer contains besides those read. -/
def Req.pre : Req → List Token
  | .opTail _ acc => acc.yield
  | _ => []

/-- A parser whose answers are right. -/
def Sound (rec : Req → List Token → PRes) : Prop :=
  ∀ r ts cs ts', rec r ts = some (cs, ts') → ReqOk r cs ∧ Cst.yields cs ++ ts' = r.pre ++ ts

theorem one_eq {x : PRes} {c : C} {ts : List Token} (h : one x = some (c, ts)) : x = some ([c], ts) := by
  unfold one at h
  split at h
  · cases h; rfl
  · cases h

theorem expect_eq {t : Token} {ts ts' : List Token} (h : expect t ts = some ts') : ts = t :: ts' := by
  unfold expect at h
  split at h
  · split at h
    · next e => cases h; rw [e]
    · cases h
  · cases h

theorem yields_append {α : Type} (a b : List (Cst α)) : Cst.yields (a ++ b) = Cst.yields a ++ Cst.yields b := by
  induction a with
  | nil => rfl
  | cons c a ih => simp [Cst.yields, ih]

/-- A single tree for `n` that consists of the tokens read. -/
def Got (n : NT) (c : C) (ts' ts : List Token) : Prop := Derives n c ∧ ts = c.yield ++ ts'

theorem Got.mono {a b : NT} {c : C} {ts' ts : List Token} (h : Got b c ts' ts) (hc : (a, b) ∈ chains) :
    Got a c ts' ts := ⟨.chain hc h.1, h.2⟩

section
variable {rec : Req → List Token → PRes} (hr : Sound rec)
include hr

theorem rec_nt {n : NT} {c : C} {ts ts' : List Token} (h : one (rec (.nt n) ts) = some (c, ts')) :
    Got n c ts' ts := by
  obtain ⟨⟨c', e, hd⟩, hy⟩ := hr _ _ _ _ (one_eq h)
  simp only [List.cons.injEq, and_true] at e
  subst e
  simp only [Cst.yields, List.append_nil, Req.pre, List.nil_append] at hy
  exact ⟨hd, hy.symm⟩

theorem optBlock_ok {b : List C} {ts ts' : List Token} (h : optBlock rec ts = some (b, ts')) :
    (b = [] ∧ ts = ts') ∨ ∃ c, b = [c] ∧ Got .block c ts' ts := by
  unfold optBlock at h
  split at h
  · split at h
    · simp only [Option.map_eq_some_iff] at h
      obtain ⟨⟨c, ts1⟩, h1, h2⟩ := h
      cases h2
      exact .inr ⟨c, rfl, rec_nt hr h1⟩
    · cases h; exact .inl ⟨rfl, rfl⟩
  · cases h; exact .inl ⟨rfl, rfl⟩

omit hr in
theorem nameP_ok {c : C} {ts ts' : List Token} (h : nameP ts = some (c, ts')) : Got .name c ts' ts := by
  unfold nameP at h
  split at h
  · cases h; exact ⟨.leaf rfl, rfl⟩
  · cases h

theorem rec_list {r : Req} {n : NT} {cs : List C} {ts ts' : List Token} (h : rec r ts = some (cs, ts'))
    (hp : r.pre = []) (hq : ∀ cs, ReqOk r cs → cs = [] ∨ Matches [.list n] cs) :
    (cs = [] ∨ Matches [.list n] cs) ∧ ts = Cst.yields cs ++ ts' := by
  obtain ⟨h1, h2⟩ := hr _ _ _ _ h
  rw [hp, List.nil_append] at h2
  exact ⟨hq cs h1, h2.symm⟩

theorem rec_statList {cs : List C} {ts ts' : List Token} (h : rec .statList ts = some (cs, ts')) :
    (cs = [] ∨ Matches [.list .stat] cs) ∧ ts = Cst.yields cs ++ ts' := rec_list hr h rfl (fun _ h => h)
theorem rec_elseIfs {cs : List C} {ts ts' : List Token} (h : rec .elseIfs ts = some (cs, ts')) :
    (cs = [] ∨ Matches [.list .elseIfThen] cs) ∧ ts = Cst.yields cs ++ ts' := rec_list hr h rfl (fun _ h => h)
theorem rec_suffixes {cs : List C} {ts ts' : List Token} (h : rec .suffixes ts = some (cs, ts')) :
    (cs = [] ∨ Matches [.list .varSuffix] cs) ∧ ts = Cst.yields cs ++ ts' := rec_list hr h rfl (fun _ h => h)
theorem rec_sepTail {n : NT} {tok : Token} {cs : List C} {ts ts' : List Token}
    (h : rec (.sepTail n tok) ts = some (cs, ts')) :
    (cs = [] ∨ ∃ cs', cs = .tok tok :: cs' ∧ Matches [.sep n tok] cs') ∧ ts = Cst.yields cs ++ ts' := by
  obtain ⟨h1, h2⟩ := hr _ _ _ _ h
  exact ⟨h1, by simpa [Req.pre] using h2.symm⟩

omit hr in
theorem Matches.sepCons' {n : NT} {tok : Token} {c : C} {cs : List C} (h : Derives n c)
    (hs : cs = [] ∨ ∃ cs', cs = .tok tok :: cs' ∧ Matches [.sep n tok] cs') : Matches [.sep n tok] (c :: cs) := by
  rcases hs with rfl | ⟨cs', rfl, hm⟩
  · exact .sepLast h .nil
  · exact .sepCons h hm

omit hr in
theorem Matches.listCons' {n : NT} {c : C} {cs : List C} (h : Derives n c)
    (hs : cs = [] ∨ Matches [.list n] cs) : Matches [.list n] (c :: cs) := by
  rcases hs with rfl | hm
  · exact .listLast h .nil
  · exact .listCons h hm

theorem blockP_ok {c : C} {ts ts' : List Token} (h : blockP rec ts = some (c, ts')) : Got .block c ts' ts := by
  unfold blockP at h
  split at h
  · exact (rec_nt hr h).mono (by inTable)
  · simp only [Option.bind_eq_bind, Option.bind_eq_some_iff] at h
    obtain ⟨⟨s, ts1⟩, h1, h2⟩ := h
    obtain ⟨d1, rfl⟩ := rec_nt hr h1
    simp only at h2
    split at h2
    · simp only [Option.bind_eq_some_iff] at h2
      obtain ⟨⟨r, ts2⟩, h3, h4⟩ := h2
      obtain ⟨d2, rfl⟩ := rec_nt hr h3
      cases h4
      exact ⟨.prod (by inTable) (.n d1 (.n d2 .nil)), by simp [Cst.yield, Cst.yields]⟩
    · cases h2
      exact ⟨.chain (by inTable) d1, rfl⟩

theorem statsP_ok {c : C} {ts ts' : List Token} (h : statsP rec ts = some (c, ts')) : Got .stats c ts' ts := by
  unfold statsP at h
  split at h
  · simp only [Option.bind_eq_bind, Option.bind_eq_some_iff] at h
    obtain ⟨⟨s, ts1⟩, h1, ⟨cs, ts2⟩, h2, h3⟩ := h
    obtain ⟨d1, rfl⟩ := rec_nt hr h1
    obtain ⟨m, rfl⟩ := rec_statList hr h2
    cases h3
    refine ⟨?_, by simp [Cst.yield, Cst.yields]⟩
    rcases m with rfl | m
    · exact .prod (by inTable) (.n d1 .nil)
    · exact .prod (ss := [.n .statStartsMayEndsPar, .list .stat]) (by inTable) (.n d1 m)
  · simp only [Option.bind_eq_bind, Option.bind_eq_some_iff] at h
    obtain ⟨⟨s, ts1⟩, h1, ⟨cs, ts2⟩, h2, h3⟩ := h
    obtain ⟨d1, rfl⟩ := rec_nt hr h1
    obtain ⟨m, rfl⟩ := rec_statList hr h2
    cases h3
    refine ⟨?_, by simp [Cst.yield, Cst.yields]⟩
    exact .prod (ss := [.list .stat]) (by inTable) (.listCons' d1 m)

omit hr in
theorem Matches.list_ne {n : NT} {cs : List C} (m : Matches [.list n] cs) : cs.isEmpty = false := by
  cases m <;> rfl

omit hr in
theorem suffixList_ok {cs : List C} (m : Matches [.list .varSuffix] cs) :
    Derives .varSuffixList (.node .varSuffixList cs) :=
  .prod (ss := [.list .varSuffix]) (by inTable) m

theorem statListP_ok {cs : List C} {ts ts' : List Token} (h : statListP rec ts = some (cs, ts')) :
    (cs = [] ∨ Matches [.list .stat] cs) ∧ ts = Cst.yields cs ++ ts' := by
  unfold statListP at h
  split at h
  · split at h
    · simp only [Option.bind_eq_bind, Option.bind_eq_some_iff] at h
      obtain ⟨⟨s, ts1⟩, h1, ⟨cs1, ts2⟩, h2, h3⟩ := h
      obtain ⟨d1, e1⟩ := rec_nt hr h1
      obtain ⟨m, rfl⟩ := rec_statList hr h2
      cases h3
      exact ⟨.inr (.listCons' d1 m), by rw [e1]; simp [Cst.yields]⟩
    · cases h; exact ⟨.inl rfl, rfl⟩
  · cases h; exact ⟨.inl rfl, rfl⟩

/-- A statement of the given kind. -/
def GotStat (c : C) (ts' ts : List Token) : Prop :=
  (if isNoPar c then Derives .statNoPar c else Derives .statMayEndsPar c) ∧ ts = c.yield ++ ts'

theorem nameStatP_ok {c : C} {ts ts' : List Token} (h : nameStatP rec ts = some (c, ts')) : GotStat c ts' ts := by
  unfold nameStatP at h
  simp only [Option.bind_eq_bind, Option.bind_eq_some_iff] at h
  obtain ⟨⟨n, ts1⟩, h1, ⟨ss, ts2⟩, h2, h3⟩ := h
  obtain ⟨d1, rfl⟩ := nameP_ok h1
  obtain ⟨m, rfl⟩ := rec_suffixes hr h2
  simp only at h3
  have hv : Derives .varNoExp (if ss.isEmpty then n else .node .var [n, .node .varSuffixList ss]) ∧
      (if ss.isEmpty then n else .node .var [n, .node .varSuffixList ss]).yield = n.yield ++ Cst.yields ss := by
    rcases m with rfl | m
    · exact ⟨.chain (by inTable) d1, by simp [Cst.yields]⟩
    · rw [Matches.list_ne m]
      exact ⟨.prod (by inTable) (.n d1 (.n (suffixList_ok m) .nil)), by simp [Cst.yields, Cst.yield]⟩
  split at h3
  · simp only [Option.bind_eq_some_iff] at h3
    obtain ⟨⟨vs, ts3⟩, h4, ts4, h5, ⟨e, ts5⟩, h6, h7⟩ := h3
    obtain ⟨ms, rfl⟩ := rec_sepTail hr h4
    cases expect_eq h5
    obtain ⟨d2, rfl⟩ := rec_nt hr h6
    cases h7
    refine ⟨?_, by simp only [Cst.yield, Cst.yields, hv.2]; simp⟩
    have : Derives .varListNoStartPar (.node (.varList [])
        ((if ss.isEmpty then n else .node .var [n, .node .varSuffixList ss]) :: vs)) := by
      rcases ms with rfl | ⟨cs', rfl, ms⟩
      · exact .prod (by inTable) (.n hv.1 .nil)
      · exact .prod (ss := [.n .varNoExp, .t .comma, .sep .varMayExp .comma]) (by inTable) (.n hv.1 (.t ms))
    exact .prod (by inTable) (.n this (.t (.n d2 .nil)))
  · split at h3
    · cases h3
    · next hne =>
      cases h3
      rcases m with rfl | m
      · exact absurd rfl hne
      · exact ⟨.chain (b := .functionCallNoStartsMayEndsPar) (by inTable)
          (.prod (by inTable) (.n d1 (.n (suffixList_ok m) .nil))), by simp [Cst.yields, Cst.yield]⟩

theorem parStatP_ok {c : C} {ts ts' : List Token} (h : parStatP rec ts = some (c, ts')) :
    Got .statStartsMayEndsPar c ts' ts := by
  unfold parStatP at h
  simp only [Option.bind_eq_bind, Option.bind_eq_some_iff] at h
  obtain ⟨ts1, h1, ⟨e, ts2⟩, h2, ts3, h3, ⟨ss, ts4⟩, h4, h5⟩ := h
  cases expect_eq h1
  obtain ⟨d1, rfl⟩ := rec_nt hr h2
  cases expect_eq h3
  obtain ⟨m, rfl⟩ := rec_suffixes hr h4
  simp only at h5
  rcases m with rfl | m
  · simp only [List.isEmpty_nil, if_true] at h5
    cases h5
    exact ⟨.chain (b := .functionCallStartsMayEndsPar) (by inTable)
      (.prod (by inTable) (.t (.n d1 (.t .nil)))), by simp [Cst.yields, Cst.yield]⟩
  · have hne : ss.isEmpty = false := Matches.list_ne m
    have dl : Derives .varSuffixList (.node .varSuffixList ss) := .prod (ss := [.list .varSuffix]) (by inTable) m
    have dv : Derives .varExp (.node .varRoundSuffix [.tok .openRound, e, .tok .closeRound, .node .varSuffixList ss]) :=
      .prod (by inTable) (.t (.n d1 (.t (.n dl .nil))))
    simp only [hne] at h5
    split at h5
    · next hf => cases hf
    · split at h5
      · simp only [Option.bind_eq_some_iff] at h5
        obtain ⟨⟨vs, ts5⟩, h6, ts6, h7, ⟨e2, ts7⟩, h8, h9⟩ := h5
        obtain ⟨ms, rfl⟩ := rec_sepTail hr h6
        cases expect_eq h7
        obtain ⟨d2, rfl⟩ := rec_nt hr h8
        cases h9
        rcases ms with rfl | ⟨cs', rfl, ms⟩
        · exact ⟨.prod (by inTable) (.n (.chain (a := .varListStartsPar) (b := .varExp) (by inTable) dv) (.t (.n d2 .nil))),
            by simp [Cst.yields, Cst.yield]⟩
        · have : Derives .varListStartsPar (.node (.varList [])
              (.node .varRoundSuffix [.tok .openRound, e, .tok .closeRound, .node .varSuffixList ss] ::
                .tok .comma :: cs')) :=
            .prod (ss := [.n .varExp, .t .comma, .sep .varMayExp .comma]) (by inTable) (.n dv (.t ms))
          exact ⟨.prod (by inTable) (.n this (.t (.n d2 .nil))), by simp [Cst.yields, Cst.yield]⟩
      · cases h5
        exact ⟨.chain (b := .functionCallStartsMayEndsPar) (by inTable)
          (.prod (by inTable) (.t (.n d1 (.t (.n dl .nil))))), by simp [Cst.yields, Cst.yield]⟩

theorem repeatP_ok {c : C} {ts ts' : List Token} (h : repeatP rec ts = some (c, ts')) : GotStat c ts' ts := by
  unfold repeatP at h
  simp only [Option.bind_eq_bind, Option.bind_eq_some_iff] at h
  obtain ⟨ts1, h1, ⟨b, ts2⟩, h2, ts3, h3, ⟨e, ts4⟩, h4, h5⟩ := h
  cases expect_eq h1
  cases expect_eq h3
  obtain ⟨d, rfl⟩ := rec_nt hr h4
  cases h5
  rcases optBlock_ok hr h2 with ⟨rfl, rfl⟩ | ⟨b, rfl, db, rfl⟩
  · exact ⟨.prod (by inTable) (.t (.t (.n d .nil))), by simp [Cst.yields, Cst.yield]⟩
  · exact ⟨.prod (by inTable) (.t (.n db (.t (.n d .nil)))), by simp [Cst.yields, Cst.yield]⟩

theorem localP_ok {c : C} {ts ts' : List Token} (h : localP rec ts = some (c, ts')) : GotStat c ts' ts := by
  unfold localP at h
  simp only [Option.bind_eq_bind, Option.bind_eq_some_iff] at h
  obtain ⟨ts1, h1, h⟩ := h
  cases expect_eq h1
  split at h
  · simp only [Option.bind_eq_some_iff] at h
    obtain ⟨ts2, h2, ⟨n, ts3⟩, h3, ⟨b, ts4⟩, h4, h5⟩ := h
    cases expect_eq h2
    obtain ⟨d1, rfl⟩ := nameP_ok h3
    obtain ⟨d2, rfl⟩ := rec_nt hr h4
    cases h5
    exact ⟨.prod (by inTable) (.t (.t (.n d1 (.n d2 .nil)))), by simp [Cst.yields, Cst.yield]⟩
  · simp only [Option.bind_eq_some_iff] at h
    obtain ⟨⟨n, ts3⟩, h3, ⟨ns, ts4⟩, h4, h5⟩ := h
    obtain ⟨d1, rfl⟩ := nameP_ok h3
    obtain ⟨ms, rfl⟩ := rec_sepTail hr h4
    have dn : Derives .nameList (.node (.nameList []) (n :: ns)) :=
      .prod (ss := [.sep .name .comma]) (by inTable) (.sepCons' d1 ms)
    simp only at h5
    split at h5
    · simp only [Option.bind_eq_some_iff] at h5
      obtain ⟨ts5, h6, ⟨e, ts6⟩, h7, h8⟩ := h5
      cases expect_eq h6
      obtain ⟨d2, rfl⟩ := rec_nt hr h7
      cases h8
      exact ⟨.prod (by inTable) (.t (.n dn (.t (.n d2 .nil)))), by simp [Cst.yields, Cst.yield]⟩
    · cases h5
      exact ⟨.prod (by inTable) (.t (.n dn .nil)), by simp [Cst.yields, Cst.yield]⟩

theorem simpleStatP_ok {c : C} {ts ts' : List Token} (h : simpleStatP rec ts = some (c, ts')) :
    GotStat c ts' ts := by
  unfold simpleStatP at h
  split at h
  · cases h; exact ⟨.prod (by inTable) (.t .nil), rfl⟩
  · cases h; exact ⟨.prod (by inTable) (.t .nil), rfl⟩
  · simp only [Option.bind_eq_bind, Option.bind_eq_some_iff] at h
    obtain ⟨⟨n, ts1⟩, h1, ts2, h2, h3⟩ := h
    obtain ⟨d1, rfl⟩ := nameP_ok h1
    cases expect_eq h2
    cases h3
    exact ⟨.chain (b := .label) (by inTable) (.prod (by inTable) (.t (.n d1 (.t .nil)))),
      by simp [Cst.yields, Cst.yield]⟩
  · simp only [Option.bind_eq_bind, Option.bind_eq_some_iff] at h
    obtain ⟨⟨n, ts1⟩, h1, h3⟩ := h
    obtain ⟨d1, rfl⟩ := nameP_ok h1
    cases h3
    exact ⟨.prod (by inTable) (.t (.n d1 .nil)), by simp [Cst.yields, Cst.yield]⟩
  · simp only [Option.bind_eq_bind, Option.bind_eq_some_iff] at h
    obtain ⟨⟨b, ts1⟩, h1, ts2, h2, h3⟩ := h
    cases expect_eq h2
    cases h3
    rcases optBlock_ok hr h1 with ⟨rfl, rfl⟩ | ⟨b, rfl, db, rfl⟩
    · exact ⟨.prod (by inTable) (.t (.t .nil)), by simp [Cst.yields, Cst.yield]⟩
    · exact ⟨.prod (by inTable) (.t (.n db (.t .nil))), by simp [Cst.yields, Cst.yield]⟩
  · simp only [Option.bind_eq_bind, Option.bind_eq_some_iff] at h
    obtain ⟨⟨e, ts0⟩, h0, ts9, h9, ⟨b, ts1⟩, h1, ts2, h2, h3⟩ := h
    obtain ⟨d0, rfl⟩ := rec_nt hr h0
    cases expect_eq h9
    cases expect_eq h2
    cases h3
    rcases optBlock_ok hr h1 with ⟨rfl, rfl⟩ | ⟨b, rfl, db, rfl⟩
    · exact ⟨.prod (by inTable) (.t (.n d0 (.t (.t .nil)))), by simp [Cst.yields, Cst.yield]⟩
    · exact ⟨.prod (by inTable) (.t (.n d0 (.t (.n db (.t .nil))))), by simp [Cst.yields, Cst.yield]⟩
  · cases h

theorem ifP_ok {c : C} {ts ts' : List Token} (h : ifP rec ts = some (c, ts')) : GotStat c ts' ts := by
  unfold ifP at h
  simp only [Option.bind_eq_bind, Option.bind_eq_some_iff] at h
  obtain ⟨ts1, h1, ⟨e, ts2⟩, h2, ts3, h3, ⟨b, ts4⟩, h4, ⟨v, ts5⟩, h5, h6⟩ := h
  cases expect_eq h1
  obtain ⟨d1, rfl⟩ := rec_nt hr h2
  cases expect_eq h3
  have hb := optBlock_ok hr h4
  obtain ⟨m, rfl⟩ := rec_elseIfs hr h5
  simp only at h6
  have hv : (v = [] ∧ v.isEmpty = true) ∨
      (v.isEmpty = false ∧ Derives .elseIfThenVec (.node .elseIfThenVec v)) := by
    rcases m with rfl | m
    · exact .inl ⟨rfl, rfl⟩
    · right
      refine ⟨Matches.list_ne m, .prod (ss := [.list .elseIfThen]) (by inTable) m⟩
  split at h6
  · simp only [Option.bind_eq_some_iff] at h6
    obtain ⟨ts6, h7, ⟨b2, ts7⟩, h8, ts8, h9, h10⟩ := h6
    have e7 := expect_eq h7
    have hb2 := optBlock_ok hr h8
    cases expect_eq h9
    cases h10
    rcases hb with ⟨rfl, rfl⟩ | ⟨b, rfl, db, rfl⟩ <;> rcases hv with ⟨rfl, hv⟩ | ⟨hv, dv⟩ <;>
      rcases hb2 with ⟨rfl, rfl⟩ | ⟨b2, rfl, db2, rfl⟩
    all_goals
      simp only [hv, List.isEmpty_nil, List.isEmpty_cons, Bool.not_true, Bool.not_false, ifTag]
      rw [e7]
    · exact ⟨.prod (by inTable) (.t (.n d1 (.t (.t (.t .nil))))), by simp [Cst.yields, Cst.yield]⟩
    · exact ⟨.prod (by inTable) (.t (.n d1 (.t (.t (.n db2 (.t .nil)))))), by simp [Cst.yields, Cst.yield]⟩
    · exact ⟨.prod (by inTable) (.t (.n d1 (.t (.n dv (.t (.t .nil)))))), by simp [Cst.yields, Cst.yield]⟩
    · exact ⟨.prod (by inTable) (.t (.n d1 (.t (.n dv (.t (.n db2 (.t .nil))))))), by simp [Cst.yields, Cst.yield]⟩
    · exact ⟨.prod (by inTable) (.t (.n d1 (.t (.n db (.t (.t .nil)))))), by simp [Cst.yields, Cst.yield]⟩
    · exact ⟨.prod (by inTable) (.t (.n d1 (.t (.n db (.t (.n db2 (.t .nil))))))), by simp [Cst.yields, Cst.yield]⟩
    · exact ⟨.prod (by inTable) (.t (.n d1 (.t (.n db (.n dv (.t (.t .nil))))))), by simp [Cst.yields, Cst.yield]⟩
    · exact ⟨.prod (by inTable) (.t (.n d1 (.t (.n db (.n dv (.t (.n db2 (.t .nil)))))))),
        by simp [Cst.yields, Cst.yield]⟩
  · simp only [Option.bind_eq_some_iff] at h6
    obtain ⟨ts6, h7, h8⟩ := h6
    have e7 := expect_eq h7
    cases h8
    rcases hb with ⟨rfl, rfl⟩ | ⟨b, rfl, db, rfl⟩ <;> rcases hv with ⟨rfl, hv⟩ | ⟨hv, dv⟩
    all_goals
      simp only [hv, List.isEmpty_nil, List.isEmpty_cons, Bool.not_true, Bool.not_false, ifTag]
      rw [e7]
    · exact ⟨.prod (by inTable) (.t (.n d1 (.t (.t .nil)))), by simp [Cst.yields, Cst.yield]⟩
    · exact ⟨.prod (by inTable) (.t (.n d1 (.t (.n dv (.t .nil))))), by simp [Cst.yields, Cst.yield]⟩
    · exact ⟨.prod (by inTable) (.t (.n d1 (.t (.n db (.t .nil))))), by simp [Cst.yields, Cst.yield]⟩
    · exact ⟨.prod (by inTable) (.t (.n d1 (.t (.n db (.n dv (.t .nil)))))), by simp [Cst.yields, Cst.yield]⟩

theorem elseIfsP_ok {cs : List C} {ts ts' : List Token} (h : elseIfsP rec ts = some (cs, ts')) :
    (cs = [] ∨ Matches [.list .elseIfThen] cs) ∧ ts = Cst.yields cs ++ ts' := by
  unfold elseIfsP at h
  split at h
  · simp only [Option.bind_eq_bind, Option.bind_eq_some_iff] at h
    obtain ⟨ts1, h1, ⟨e, ts2⟩, h2, ts3, h3, ⟨b, ts4⟩, h4, ⟨v, ts5⟩, h5, h6⟩ := h
    cases expect_eq h1
    obtain ⟨d1, rfl⟩ := rec_nt hr h2
    cases expect_eq h3
    obtain ⟨m, rfl⟩ := rec_elseIfs hr h5
    cases h6
    rcases optBlock_ok hr h4 with ⟨rfl, rfl⟩ | ⟨b, rfl, db, rfl⟩
    · exact ⟨.inr (.listCons' (.prod (by inTable) (.t (.n d1 (.t .nil)))) m), by simp [Cst.yields, Cst.yield]⟩
    · exact ⟨.inr (.listCons' (.prod (by inTable) (.t (.n d1 (.t (.n db .nil))))) m),
        by simp [Cst.yields, Cst.yield]⟩
  · cases h; exact ⟨.inl rfl, rfl⟩

theorem forP_ok {c : C} {ts ts' : List Token} (h : forP rec ts = some (c, ts')) : GotStat c ts' ts := by
  unfold forP at h
  simp only [Option.bind_eq_bind, Option.bind_eq_some_iff] at h
  obtain ⟨ts1, h1, ⟨n, ts2⟩, h2, h3⟩ := h
  cases expect_eq h1
  obtain ⟨dn, rfl⟩ := nameP_ok h2
  simp only at h3
  split at h3
  · simp only [Option.bind_eq_some_iff] at h3
    obtain ⟨ts3, h4, ⟨e1, ts4⟩, h5, ts5, h6, ⟨e2, ts6⟩, h7, h8⟩ := h3
    cases expect_eq h4
    obtain ⟨d1, rfl⟩ := rec_nt hr h5
    cases expect_eq h6
    obtain ⟨d2, rfl⟩ := rec_nt hr h7
    simp only at h8
    split at h8
    · simp only [Option.bind_eq_some_iff] at h8
      obtain ⟨ts7, h9, ⟨e3, ts8⟩, h10, ts9, h11, ⟨b, ts10⟩, h12, ts11, h13, h14⟩ := h8
      cases expect_eq h9
      obtain ⟨d3, rfl⟩ := rec_nt hr h10
      cases expect_eq h11
      cases expect_eq h13
      cases h14
      rcases optBlock_ok hr h12 with ⟨rfl, rfl⟩ | ⟨b, rfl, db, rfl⟩
      · exact ⟨.prod (by inTable) (.t (.n dn (.t (.n d1 (.t (.n d2 (.t (.n d3 (.t (.t .nil)))))))))),
          by simp [Cst.yields, Cst.yield]⟩
      · exact ⟨.prod (by inTable) (.t (.n dn (.t (.n d1 (.t (.n d2 (.t (.n d3 (.t (.n db (.t .nil))))))))))),
          by simp [Cst.yields, Cst.yield]⟩
    · simp only [Option.bind_eq_some_iff] at h8
      obtain ⟨ts9, h11, ⟨b, ts10⟩, h12, ts11, h13, h14⟩ := h8
      cases expect_eq h11
      cases expect_eq h13
      cases h14
      rcases optBlock_ok hr h12 with ⟨rfl, rfl⟩ | ⟨b, rfl, db, rfl⟩
      · exact ⟨.prod (by inTable) (.t (.n dn (.t (.n d1 (.t (.n d2 (.t (.t .nil)))))))),
          by simp [Cst.yields, Cst.yield]⟩
      · exact ⟨.prod (by inTable) (.t (.n dn (.t (.n d1 (.t (.n d2 (.t (.n db (.t .nil))))))))),
          by simp [Cst.yields, Cst.yield]⟩
  · simp only [Option.bind_eq_some_iff] at h3
    obtain ⟨⟨ns, ts3⟩, h4, ts4, h5, ⟨e, ts5⟩, h6, ts6, h7, ⟨b, ts10⟩, h12, ts11, h13, h14⟩ := h3
    obtain ⟨ms, rfl⟩ := rec_sepTail hr h4
    cases expect_eq h5
    obtain ⟨d1, rfl⟩ := rec_nt hr h6
    cases expect_eq h7
    cases expect_eq h13
    cases h14
    have dl : Derives .nameList (.node (.nameList []) (n :: ns)) :=
      .prod (ss := [.sep .name .comma]) (by inTable) (.sepCons' dn ms)
    rcases optBlock_ok hr h12 with ⟨rfl, rfl⟩ | ⟨b, rfl, db, rfl⟩
    · exact ⟨.prod (by inTable) (.t (.n dl (.t (.n d1 (.t (.t .nil)))))), by simp [Cst.yields, Cst.yield]⟩
    · exact ⟨.prod (by inTable) (.t (.n dl (.t (.n d1 (.t (.n db (.t .nil))))))), by simp [Cst.yields, Cst.yield]⟩

theorem funcNameP_ok {c : C} {ts ts' : List Token} (h : funcNameP rec ts = some (c, ts')) :
    Got .funcName c ts' ts := by
  unfold funcNameP at h
  simp only [Option.bind_eq_bind, Option.bind_eq_some_iff] at h
  obtain ⟨⟨n, ts1⟩, h1, ⟨ns, ts2⟩, h2, h3⟩ := h
  obtain ⟨d1, rfl⟩ := nameP_ok h1
  obtain ⟨ms, rfl⟩ := rec_sepTail hr h2
  simp only at h3
  split at h3
  · simp only [Option.bind_eq_some_iff] at h3
    obtain ⟨ts3, h4, ⟨m, ts4⟩, h5, h6⟩ := h3
    cases expect_eq h4
    obtain ⟨d2, rfl⟩ := nameP_ok h5
    cases h6
    have dl : Derives .funcNameItems (.node (.funcNameItems []) (n :: ns)) :=
      .prod (ss := [.sep .name .period]) (by inTable) (.sepCons' d1 ms)
    exact ⟨.prod (by inTable) (.n dl (.t (.n d2 .nil))), by simp [Cst.yields, Cst.yield]⟩
  · cases h3
    exact ⟨.prod (ss := [.sep .name .period]) (by inTable) (.sepCons' d1 ms), by simp [Cst.yields, Cst.yield]⟩

theorem funcDeclP_ok {c : C} {ts ts' : List Token} (h : funcDeclP rec ts = some (c, ts')) : GotStat c ts' ts := by
  unfold funcDeclP at h
  simp only [Option.bind_eq_bind, Option.bind_eq_some_iff] at h
  obtain ⟨ts1, h1, ⟨n, ts2⟩, h2, ⟨b, ts3⟩, h3, h4⟩ := h
  cases expect_eq h1
  obtain ⟨d1, rfl⟩ := rec_nt hr h2
  obtain ⟨d2, rfl⟩ := rec_nt hr h3
  cases h4
  exact ⟨.prod (by inTable) (.t (.n d1 (.n d2 .nil))), by simp [Cst.yields, Cst.yield]⟩

theorem funcBodyP_ok {c : C} {ts ts' : List Token} (h : funcBodyP rec ts = some (c, ts')) :
    Got .funcBody c ts' ts := by
  unfold funcBodyP at h
  simp only [Option.bind_eq_bind, Option.bind_eq_some_iff] at h
  obtain ⟨ts1, h1, h2⟩ := h
  cases expect_eq h1
  split at h2
  · simp only [Option.bind_eq_some_iff] at h2
    obtain ⟨ts2, h3, ⟨b, ts3⟩, h4, ts4, h5, h6⟩ := h2
    cases expect_eq h3
    cases expect_eq h5
    cases h6
    rcases optBlock_ok hr h4 with ⟨rfl, rfl⟩ | ⟨b, rfl, db, rfl⟩
    · exact ⟨.prod (by inTable) (.t (.t (.t .nil))), by simp [Cst.yields, Cst.yield]⟩
    · exact ⟨.prod (by inTable) (.t (.t (.n db (.t .nil)))), by simp [Cst.yields, Cst.yield]⟩
  · simp only [Option.bind_eq_some_iff] at h2
    obtain ⟨⟨p, ts2⟩, h3, ⟨ps, ts3⟩, h4, ts4, h5, ⟨b, ts5⟩, h6, ts6, h7, h8⟩ := h2
    obtain ⟨d1, rfl⟩ := rec_nt hr h3
    obtain ⟨ms, rfl⟩ := rec_sepTail hr h4
    cases expect_eq h5
    cases expect_eq h7
    cases h8
    have dl : Derives .parList (.node (.parList []) (p :: ps)) :=
      .prod (ss := [.sep .par .comma]) (by inTable) (.sepCons' d1 ms)
    rcases optBlock_ok hr h6 with ⟨rfl, rfl⟩ | ⟨b, rfl, db, rfl⟩
    · exact ⟨.prod (by inTable) (.t (.n dl (.t (.t .nil)))), by simp [Cst.yields, Cst.yield]⟩
    · exact ⟨.prod (by inTable) (.t (.n dl (.t (.n db (.t .nil))))), by simp [Cst.yields, Cst.yield]⟩

theorem statCoreP_ok {c : C} {ts ts' : List Token} (h : statCoreP rec ts = some (c, ts')) : GotStat c ts' ts := by
  unfold statCoreP at h
  split at h
  · exact nameStatP_ok hr h
  · exact repeatP_ok hr h
  · exact localP_ok hr h
  · exact ifP_ok hr h
  · exact forP_ok hr h
  · exact funcDeclP_ok hr h
  · exact simpleStatP_ok hr h

theorem statP_ok {c : C} {ts ts' : List Token} (h : statP rec ts = some (c, ts')) : Got .stat c ts' ts := by
  unfold statP at h
  simp only [Option.bind_eq_bind, Option.bind_eq_some_iff] at h
  obtain ⟨⟨c1, ts1⟩, h1, h2⟩ := h
  obtain ⟨d1, rfl⟩ := statCoreP_ok hr h1
  simp only at h2
  split at h2
  · next hn =>
    rw [if_pos hn.1] at d1
    simp only [Option.bind_eq_some_iff] at h2
    obtain ⟨⟨d, ts2⟩, h3, h4⟩ := h2
    obtain ⟨d2, rfl⟩ := rec_nt hr h3
    cases h4
    exact ⟨.prod (by inTable) (.n d1 (.n d2 .nil)), by simp [Cst.yields, Cst.yield]⟩
  · cases h2
    refine ⟨?_, rfl⟩
    split at d1
    · exact .chain (by inTable) d1
    · exact .chain (by inTable) d1

theorem retStatP_ok {c : C} {ts ts' : List Token} (h : retStatP rec ts = some (c, ts')) : Got .retStat c ts' ts := by
  unfold retStatP at h
  simp only [Option.bind_eq_bind, Option.bind_eq_some_iff] at h
  obtain ⟨ts1, h1, h2⟩ := h
  cases expect_eq h1
  split at h2
  · simp only [Option.bind_eq_some_iff] at h2
    obtain ⟨⟨e, ts2⟩, h3, h4⟩ := h2
    obtain ⟨d1, rfl⟩ := rec_nt hr h3
    simp only at h4
    split at h4
    · simp only [Option.bind_eq_some_iff] at h4
      obtain ⟨ts3, h5, h6⟩ := h4
      cases expect_eq h5
      cases h6
      exact ⟨.prod (by inTable) (.t (.n d1 (.t .nil))), by simp [Cst.yields, Cst.yield]⟩
    · cases h4
      exact ⟨.prod (by inTable) (.t (.n d1 .nil)), by simp [Cst.yields, Cst.yield]⟩
  · split at h2
    · simp only [Option.bind_eq_some_iff] at h2
      obtain ⟨ts3, h5, h6⟩ := h2
      cases expect_eq h5
      cases h6
      exact ⟨.prod (by inTable) (.t (.t .nil)), by simp [Cst.yields, Cst.yield]⟩
    · cases h2
      exact ⟨.prod (by inTable) (.t .nil), by simp [Cst.yields, Cst.yield]⟩

theorem sepTailP_ok {n : NT} {tok : Token} {cs : List C} {ts ts' : List Token}
    (h : sepTailP rec n tok ts = some (cs, ts')) :
    (cs = [] ∨ ∃ cs', cs = .tok tok :: cs' ∧ Matches [.sep n tok] cs') ∧ ts = Cst.yields cs ++ ts' := by
  unfold sepTailP at h
  split at h
  · simp only [Option.bind_eq_bind, Option.bind_eq_some_iff] at h
    obtain ⟨ts1, h1, ⟨c, ts2⟩, h2, ⟨cs2, ts3⟩, h3, h4⟩ := h
    cases expect_eq h1
    obtain ⟨d1, rfl⟩ := rec_nt hr h2
    obtain ⟨ms, rfl⟩ := rec_sepTail hr h3
    cases h4
    exact ⟨.inr ⟨_, rfl, .sepCons' d1 ms⟩, by simp [Cst.yields, Cst.yield]⟩
  · cases h; exact ⟨.inl rfl, rfl⟩

theorem expListP_ok {c : C} {ts ts' : List Token} (h : expListP rec ts = some (c, ts')) : Got .expList c ts' ts := by
  unfold expListP at h
  simp only [Option.bind_eq_bind, Option.bind_eq_some_iff] at h
  obtain ⟨⟨e, ts1⟩, h1, ⟨es, ts2⟩, h2, h3⟩ := h
  obtain ⟨d1, rfl⟩ := rec_nt hr h1
  obtain ⟨ms, rfl⟩ := rec_sepTail hr h2
  cases h3
  exact ⟨.prod (ss := [.sep .opExp .comma]) (by inTable) (.sepCons' d1 ms), by simp [Cst.yields, Cst.yield]⟩

theorem suffixesP_ok {cs : List C} {ts ts' : List Token} (h : suffixesP rec ts = some (cs, ts')) :
    (cs = [] ∨ Matches [.list .varSuffix] cs) ∧ ts = Cst.yields cs ++ ts' := by
  unfold suffixesP at h
  split at h
  · split at h
    · simp only [Option.bind_eq_bind, Option.bind_eq_some_iff] at h
      obtain ⟨⟨s, ts1⟩, h1, ⟨cs1, ts2⟩, h2, h3⟩ := h
      obtain ⟨d1, e1⟩ := rec_nt hr h1
      obtain ⟨m, rfl⟩ := rec_suffixes hr h2
      cases h3
      exact ⟨.inr (.listCons' d1 m), by rw [e1]; simp [Cst.yields]⟩
    · cases h; exact ⟨.inl rfl, rfl⟩
  · cases h; exact ⟨.inl rfl, rfl⟩

omit hr in
theorem stringP_ok {c : C} {ts ts' : List Token} (h : stringP ts = some (c, ts')) : Got .stringLiteral c ts' ts := by
  unfold stringP at h
  split at h
  · cases h; exact ⟨.leaf rfl, rfl⟩
  · cases h; exact ⟨.leaf rfl, rfl⟩
  · cases h; exact ⟨.leaf rfl, rfl⟩
  · cases h

theorem fieldItemsP_ok {cs : List C} {ts ts' : List Token} (h : fieldItemsP rec ts = some (cs, ts')) :
    Matches [.sepEnd .field] cs ∧ ts = Cst.yields cs ++ ts' := by
  unfold fieldItemsP at h
  simp only [Option.bind_eq_bind, Option.bind_eq_some_iff] at h
  obtain ⟨⟨f, ts1⟩, h1, h2⟩ := h
  obtain ⟨d1, rfl⟩ := rec_nt hr h1
  simp only at h2
  split at h2
  · split at h2
    · next hs =>
      split at h2
      · cases h2
        exact ⟨.sepEndTrail d1 hs .nil, by simp [Cst.yields, Cst.yield]⟩
      · simp only [Option.bind_eq_some_iff] at h2
        obtain ⟨⟨fs, ts2⟩, h3, h4⟩ := h2
        obtain ⟨m, e⟩ := hr _ _ _ _ h3
        cases h4
        simp only [Req.pre, List.nil_append] at e
        subst e
        exact ⟨.sepEndCons d1 hs m, by simp [Cst.yields, Cst.yield]⟩
    · cases h2
      exact ⟨.sepEndLast d1 .nil, by simp [Cst.yields]⟩
  · cases h2
    exact ⟨.sepEndLast d1 .nil, by simp [Cst.yields]⟩

theorem tableP_ok {c : C} {ts ts' : List Token} (h : tableP rec ts = some (c, ts')) :
    Got .tableConstructor c ts' ts := by
  unfold tableP at h
  simp only [Option.bind_eq_bind, Option.bind_eq_some_iff] at h
  obtain ⟨ts1, h1, h2⟩ := h
  cases expect_eq h1
  split at h2
  · simp only [Option.bind_eq_some_iff] at h2
    obtain ⟨ts2, h3, h4⟩ := h2
    cases expect_eq h3
    cases h4
    exact ⟨.prod (by inTable) (.t (.t .nil)), by simp [Cst.yields, Cst.yield]⟩
  · simp only [Option.bind_eq_some_iff] at h2
    obtain ⟨⟨fs, ts2⟩, h3, ts3, h4, h5⟩ := h2
    obtain ⟨m, e⟩ := hr _ _ _ _ h3
    simp only [Req.pre, List.nil_append] at e
    subst e
    cases expect_eq h4
    cases h5
    exact ⟨.prod (by inTable) (.t (.n (.prod (a := .fieldList) (ss := [.sepEnd .field]) (by inTable) m) (.t .nil))),
      by simp [Cst.yields, Cst.yield]⟩

theorem fieldP_ok {c : C} {ts ts' : List Token} (h : fieldP rec ts = some (c, ts')) : Got .field c ts' ts := by
  unfold fieldP at h
  split at h
  · simp only [Option.bind_eq_bind, Option.bind_eq_some_iff] at h
    obtain ⟨⟨e1, ts1⟩, h1, ts2, h2, ts3, h3, ⟨e2, ts4⟩, h4, h5⟩ := h
    obtain ⟨d1, rfl⟩ := rec_nt hr h1
    cases expect_eq h2
    cases expect_eq h3
    obtain ⟨d2, rfl⟩ := rec_nt hr h4
    cases h5
    exact ⟨.prod (by inTable) (.t (.n d1 (.t (.t (.n d2 .nil))))), by simp [Cst.yields, Cst.yield]⟩
  · simp only [Option.bind_eq_bind, Option.bind_eq_some_iff] at h
    obtain ⟨⟨e1, ts1⟩, h1, h5⟩ := h
    obtain ⟨d1, rfl⟩ := rec_nt hr h1
    cases h5
    exact ⟨.prod (by inTable) (.n (.leaf rfl) (.t (.n d1 .nil))), by simp [Cst.yields, Cst.yield]⟩
  · simp only [Option.bind_eq_bind, Option.bind_eq_some_iff] at h
    obtain ⟨⟨e1, ts1⟩, h1, h5⟩ := h
    obtain ⟨d1, rfl⟩ := rec_nt hr h1
    cases h5
    exact ⟨.prod (by inTable) (.n d1 .nil), by simp [Cst.yields, Cst.yield]⟩

theorem argsP_ok {c : C} {ts ts' : List Token} (h : argsP rec ts = some (c, ts')) : Got .args c ts' ts := by
  unfold argsP at h
  split at h
  · split at h
    · simp only [Option.bind_eq_bind, Option.bind_eq_some_iff] at h
      obtain ⟨ts2, h3, h4⟩ := h
      cases expect_eq h3
      cases h4
      exact ⟨.prod (by inTable) (.t (.t .nil)), by simp [Cst.yields, Cst.yield]⟩
    · simp only [Option.bind_eq_bind, Option.bind_eq_some_iff] at h
      obtain ⟨⟨e1, ts1⟩, h1, ts2, h2, h5⟩ := h
      obtain ⟨d1, rfl⟩ := rec_nt hr h1
      cases expect_eq h2
      cases h5
      exact ⟨.prod (by inTable) (.t (.n d1 (.t .nil))), by simp [Cst.yields, Cst.yield]⟩
  · exact (rec_nt hr h).mono (by inTable)
  · exact (stringP_ok h).mono (by inTable)

theorem varSuffixP_ok {c : C} {ts ts' : List Token} (h : varSuffixP rec ts = some (c, ts')) :
    Got .varSuffix c ts' ts := by
  unfold varSuffixP at h
  split at h
  · simp only [Option.bind_eq_bind, Option.bind_eq_some_iff] at h
    obtain ⟨⟨e1, ts1⟩, h1, ts2, h2, h5⟩ := h
    obtain ⟨d1, rfl⟩ := rec_nt hr h1
    cases expect_eq h2
    cases h5
    exact ⟨.prod (by inTable) (.t (.n d1 (.t .nil))), by simp [Cst.yields, Cst.yield]⟩
  · simp only [Option.bind_eq_bind, Option.bind_eq_some_iff] at h
    obtain ⟨⟨e1, ts1⟩, h1, h5⟩ := h
    obtain ⟨d1, rfl⟩ := nameP_ok h1
    cases h5
    exact ⟨.prod (by inTable) (.t (.n d1 .nil)), by simp [Cst.yields, Cst.yield]⟩
  · simp only [Option.bind_eq_bind, Option.bind_eq_some_iff] at h
    obtain ⟨⟨e1, ts1⟩, h1, ⟨a, ts2⟩, h2, h5⟩ := h
    obtain ⟨d1, rfl⟩ := nameP_ok h1
    obtain ⟨d2, rfl⟩ := rec_nt hr h2
    cases h5
    exact ⟨.prod (by inTable) (.t (.n d1 (.n d2 .nil))), by simp [Cst.yields, Cst.yield]⟩
  · exact (rec_nt hr h).mono (by inTable)

theorem prefixP_ok {c : C} {ts ts' : List Token} (h : prefixP rec ts = some (c, ts')) :
    Got .prefixMayStartsMayEndsPar c ts' ts := by
  unfold prefixP at h
  split at h
  · simp only [Option.bind_eq_bind, Option.bind_eq_some_iff] at h
    obtain ⟨⟨e1, ts1⟩, h1, ts2, h2, ⟨ss, ts3⟩, h3, h4⟩ := h
    obtain ⟨d1, rfl⟩ := rec_nt hr h1
    cases expect_eq h2
    obtain ⟨m, rfl⟩ := rec_suffixes hr h3
    rcases m with rfl | m
    · simp only [List.isEmpty_nil, if_true] at h4
      cases h4
      exact ⟨.prod (by inTable) (.t (.n d1 (.t .nil))), by simp [Cst.yields, Cst.yield]⟩
    · have hne : ¬ ss.isEmpty = true := by simp [Matches.list_ne m]
      simp only [if_neg hne] at h4
      cases h4
      have dl : Derives .varSuffixList (.node .varSuffixList ss) := .prod (ss := [.list .varSuffix]) (by inTable) m
      exact ⟨.chain (b := .varMayExp) (by inTable) (.prod (by inTable) (.t (.n d1 (.t (.n dl .nil))))),
        by simp [Cst.yields, Cst.yield]⟩
  · simp only [Option.bind_eq_bind, Option.bind_eq_some_iff] at h
    obtain ⟨⟨n, ts1⟩, h1, ⟨ss, ts3⟩, h3, h4⟩ := h
    obtain ⟨d1, rfl⟩ := nameP_ok h1
    obtain ⟨m, rfl⟩ := rec_suffixes hr h3
    rcases m with rfl | m
    · simp only [List.isEmpty_nil, if_true] at h4
      cases h4
      exact ⟨.chain (b := .varMayExp) (by inTable) (.chain (by inTable) d1), by simp [Cst.yields]⟩
    · have hne : ¬ ss.isEmpty = true := by simp [Matches.list_ne m]
      simp only [if_neg hne] at h4
      cases h4
      have dl : Derives .varSuffixList (.node .varSuffixList ss) := .prod (ss := [.list .varSuffix]) (by inTable) m
      exact ⟨.chain (b := .varMayExp) (by inTable) (.prod (by inTable) (.n d1 (.n dl .nil))),
        by simp [Cst.yields, Cst.yield]⟩

omit hr in
theorem derives_prefix {c : C} (h : Derives .prefixMayStartsMayEndsPar c) :
    Derives .varMayExp c ∨ ∃ cs, c = .node .roundBrackets cs := by
  cases h with
  | chain hc h =>
    simp [chains] at hc
    subst hc
    exact .inl h
  | prod hp _ =>
    simp [prods] at hp
    exact .inr ⟨_, by rw [hp.1]⟩
  | leaf hl =>
    unfold leafTag at hl
    split at hl <;> cases hl

theorem varMayExpP_ok {c : C} {ts ts' : List Token} (h : varMayExpP rec ts = some (c, ts')) :
    Got .varMayExp c ts' ts := by
  unfold varMayExpP at h
  simp only [Option.bind_eq_bind, Option.bind_eq_some_iff] at h
  obtain ⟨⟨c1, ts1⟩, h1, h2⟩ := h
  obtain ⟨d1, rfl⟩ := rec_nt hr h1
  simp only at h2
  split at h2
  · cases h2
  · next hne =>
    cases h2
    rcases derives_prefix d1 with d | ⟨cs, rfl⟩
    · exact ⟨d, rfl⟩
    · exact absurd rfl (hne _)

theorem expP_ok {c : C} {ts ts' : List Token} (h : expP rec ts = some (c, ts')) : Got .exp c ts' ts := by
  unfold expP at h
  split at h
  · cases h; exact ⟨.prod (by inTable) (.t .nil), rfl⟩
  · cases h; exact ⟨.prod (by inTable) (.t .nil), rfl⟩
  · cases h; exact ⟨.prod (by inTable) (.t .nil), rfl⟩
  · cases h; exact ⟨.leaf rfl, rfl⟩
  · cases h; exact ⟨.prod (by inTable) (.t .nil), rfl⟩
  · simp only [Option.bind_eq_bind, Option.bind_eq_some_iff] at h
    obtain ⟨⟨b, ts1⟩, h1, h5⟩ := h
    obtain ⟨d1, rfl⟩ := rec_nt hr h1
    cases h5
    exact ⟨.chain (b := .functionDef) (by inTable) (.prod (by inTable) (.t (.n d1 .nil))),
      by simp [Cst.yields, Cst.yield]⟩
  · exact (rec_nt hr h).mono (by inTable)
  · exact (rec_nt hr h).mono (by inTable)
  · exact (rec_nt hr h).mono (by inTable)
  · exact (stringP_ok h).mono (by inTable)

omit hr in
theorem parP_ok {c : C} {ts ts' : List Token} (h : parP ts = some (c, ts')) : Got .par c ts' ts := by
  unfold parP at h
  split at h
  · cases h; exact ⟨.prod (by inTable) (.t .nil), rfl⟩
  · exact (nameP_ok h).mono (by inTable)

omit hr in
theorem nextOp_chain {k : Nat} (h : k < 12) : (NT.op k, nextOp k) ∈ chains := by
  have : k = 0 ∨ k = 1 ∨ k = 2 ∨ k = 3 ∨ k = 4 ∨ k = 5 ∨ k = 6 ∨ k = 7 ∨ k = 8 ∨ k = 9 ∨ k = 10 ∨ k = 11 := by omega
  rcases this with rfl | rfl | rfl | rfl | rfl | rfl | rfl | rfl | rfl | rfl | rfl | rfl <;> inTable

omit hr in
theorem binOp_prod {t : Token} {k : Nat} {s : Str} (h : binOp t = some (k, s)) :
    (NT.op k, Tag.binaryOp s, [Sym.n (.op k), .t t, .n (nextOp k)]) ∈ prods := by
  unfold binOp at h
  split at h <;> first | (cases h; done) | (cases h; inTable)

theorem rec_opTail {k : Nat} {acc c : C} {ts ts' : List Token}
    (h : one (rec (.opTail k acc) ts) = some (c, ts')) :
    (Derives (.op k) acc → Derives (.op k) c) ∧ acc.yield ++ ts = c.yield ++ ts' := by
  obtain ⟨h1, h2⟩ := hr _ _ _ _ (one_eq h)
  refine ⟨fun ha => ?_, ?_⟩
  · obtain ⟨c', e, hd⟩ := h1 ha
    simp only [List.cons.injEq, and_true] at e
    subst e
    exact hd
  · simp only [Cst.yields, List.append_nil, Req.pre] at h2
    exact h2.symm

theorem opP_ok {k : Nat} {c : C} {ts ts' : List Token} (h : opP rec k ts = some (c, ts')) :
    Got (.op k) c ts' ts := by
  unfold opP at h
  split at h
  · next hk =>
    subst hk
    split at h
    · simp only [Option.bind_eq_bind, Option.bind_eq_some_iff] at h
      obtain ⟨⟨e1, ts1⟩, h1, h5⟩ := h
      obtain ⟨d1, rfl⟩ := rec_nt hr h1
      cases h5
      exact ⟨.prod (by inTable) (.t (.n d1 .nil)), by simp [Cst.yields, Cst.yield]⟩
    · simp only [Option.bind_eq_bind, Option.bind_eq_some_iff] at h
      obtain ⟨⟨e1, ts1⟩, h1, h5⟩ := h
      obtain ⟨d1, rfl⟩ := rec_nt hr h1
      cases h5
      exact ⟨.prod (by inTable) (.t (.n d1 .nil)), by simp [Cst.yields, Cst.yield]⟩
    · simp only [Option.bind_eq_bind, Option.bind_eq_some_iff] at h
      obtain ⟨⟨e1, ts1⟩, h1, h5⟩ := h
      obtain ⟨d1, rfl⟩ := rec_nt hr h1
      cases h5
      exact ⟨.prod (by inTable) (.t (.n d1 .nil)), by simp [Cst.yields, Cst.yield]⟩
    · simp only [Option.bind_eq_bind, Option.bind_eq_some_iff] at h
      obtain ⟨⟨e1, ts1⟩, h1, h5⟩ := h
      obtain ⟨d1, rfl⟩ := rec_nt hr h1
      cases h5
      exact ⟨.prod (by inTable) (.t (.n d1 .nil)), by simp [Cst.yields, Cst.yield]⟩
    · exact (rec_nt hr h).mono (by inTable)
  · split at h
    · next hk =>
      simp only [Option.bind_eq_bind, Option.bind_eq_some_iff] at h
      obtain ⟨⟨e1, ts1⟩, h1, h5⟩ := h
      obtain ⟨d1, rfl⟩ := rec_nt hr h1
      obtain ⟨h6, h7⟩ := rec_opTail hr h5
      exact ⟨h6 (.chain (nextOp_chain hk) d1), h7⟩
    · cases h

theorem opTailP_ok {k : Nat} {acc c : C} {ts ts' : List Token}
    (h : opTailP rec k acc ts = some (c, ts')) :
    (Derives (.op k) acc → Derives (.op k) c) ∧ acc.yield ++ ts = c.yield ++ ts' := by
  unfold opTailP at h
  split at h
  · split at h
    · next hb =>
      split at h
      · next hj =>
        subst hj
        simp only [Option.bind_eq_bind, Option.bind_eq_some_iff] at h
        obtain ⟨⟨e1, ts1⟩, h1, h5⟩ := h
        obtain ⟨d1, rfl⟩ := rec_nt hr h1
        obtain ⟨hd, hy⟩ := rec_opTail hr h5
        exact ⟨fun ha => hd (.prod (binOp_prod hb) (.n ha (.t (.n d1 .nil)))),
          by rw [← hy]; simp [Cst.yields, Cst.yield]⟩
      · cases h; exact ⟨id, rfl⟩
    · cases h; exact ⟨id, rfl⟩
  · cases h; exact ⟨id, rfl⟩

omit hr in
theorem single1_ok {n : NT} {x : Option (C × List Token)} {cs : List C} {ts ts' : List Token}
    (h : single1 x = some (cs, ts')) (hx : ∀ c, x = some (c, ts') → Got n c ts' ts) :
    ReqOk (.nt n) cs ∧ Cst.yields cs ++ ts' = Req.pre (.nt n) ++ ts := by
  simp only [single1, Option.map_eq_some_iff] at h
  obtain ⟨⟨c, ts1⟩, h1, h2⟩ := h
  cases h2
  obtain ⟨d, e⟩ := hx c h1
  exact ⟨⟨c, rfl, d⟩, by simp [Cst.yields, Req.pre, e]⟩

theorem parseStep_sound : Sound (parseStep rec) := by
  intro r ts cs ts' h
  unfold parseStep at h
  split at h
  · exact single1_ok h (fun _ => blockP_ok hr)
  · exact single1_ok h (fun _ => statsP_ok hr)
  · exact single1_ok h (fun _ => statP_ok hr)
  · exact single1_ok h (fun _ => parStatP_ok hr)
  · exact single1_ok h (fun _ => retStatP_ok hr)
  · exact single1_ok h (fun _ => funcNameP_ok hr)
  · exact single1_ok h (fun _ => funcBodyP_ok hr)
  · exact single1_ok h (fun _ => expListP_ok hr)
  · exact single1_ok h (fun _ => tableP_ok hr)
  · exact single1_ok h (fun _ => fieldP_ok hr)
  · exact single1_ok h (fun _ => argsP_ok hr)
  · exact single1_ok h (fun _ => varSuffixP_ok hr)
  · exact single1_ok h (fun _ => prefixP_ok hr)
  · exact single1_ok h (fun _ => varMayExpP_ok hr)
  · exact single1_ok h (fun _ => expP_ok hr)
  · exact single1_ok h (fun _ => parP_ok)
  · exact single1_ok h (fun _ => nameP_ok)
  · obtain ⟨⟨c, e, d⟩, hy⟩ := hr _ _ _ _ h
    exact ⟨⟨c, e, .chain (by inTable) d⟩, hy⟩
  · exact single1_ok h (fun _ => opP_ok hr)
  · cases h
  · obtain ⟨h1, h2⟩ := statListP_ok hr h
    exact ⟨h1, h2.symm⟩
  · obtain ⟨h1, h2⟩ := elseIfsP_ok hr h
    exact ⟨h1, h2.symm⟩
  · obtain ⟨h1, h2⟩ := suffixesP_ok hr h
    exact ⟨h1, h2.symm⟩
  · obtain ⟨h1, h2⟩ := sepTailP_ok hr h
    exact ⟨h1, h2.symm⟩
  · obtain ⟨h1, h2⟩ := fieldItemsP_ok hr h
    exact ⟨h1, h2.symm⟩
  · simp only [single1, Option.map_eq_some_iff] at h
    obtain ⟨⟨c, ts1⟩, h1, h2⟩ := h
    cases h2
    obtain ⟨h3, h4⟩ := opTailP_ok hr h1
    exact ⟨fun ha => ⟨c, rfl, h3 ha⟩, by simp [Cst.yields, Req.pre, h4]⟩

end

theorem parseReq_sound (fuel : Nat) : Sound (parseReq fuel) := by
  induction fuel with
  | zero => intro r ts cs ts' h; cases h
  | succ fuel ih => exact parseStep_sound ih

theorem parseBlock_sound {ts ts' : List Token} {b : C} (h : parseBlock ts = some (b, ts')) :
    Got .block b ts' ts := rec_nt (parseReq_sound _) h

theorem parseChunk_sound {ts : List Token} {sb b : Option C} (h : parseChunk ts = some (sb, b)) :
    (∀ c, sb = some c → ∃ s, c = .node (.sheBang s) [.tok (.sheBang s)]) ∧
    (∀ c, b = some c → Derives .block c) ∧
    ts = Cst.yields (sb.toList ++ b.toList) ++ [.eof] := by
  unfold parseChunk at h
  split at h
  · simp only at h
    split at h
    · next hts =>
      cases h
      refine ⟨fun c h => ?_, fun c h => (by cases h), by simp [hts, Cst.yields, Cst.yield]⟩
      cases h; exact ⟨_, rfl⟩
    · split at h
      · next hb =>
        cases h
        obtain ⟨d, e⟩ := parseBlock_sound hb
        refine ⟨fun c h => ?_, fun c h => (by cases h; exact d), by simp [e, Cst.yields, Cst.yield]⟩
        cases h; exact ⟨_, rfl⟩
      · cases h
  · split at h
    · next hts =>
      cases h
      exact ⟨fun c h => (by cases h), fun c h => (by cases h), by simp [hts, Cst.yields]⟩
    · split at h
      · next hb =>
        cases h
        obtain ⟨d, e⟩ := parseBlock_sound hb
        exact ⟨fun c h => (by cases h), fun c h => (by cases h; exact d), by simp [e, Cst.yields]⟩
      · cases h

end Luafmt
